import Verif.Proofs.TaggedNoise

/-! # Merging and optimisation of gates made by factories -/

namespace Verif.Proofs
open Verif Verif.Spec Verif.Model

/-- a gate with a matrix made by a factory -/
abbrev detMake (u : UGate) : TGate := TGate.make (.det u)

theorem cls_perm (u : UGate) : (Gate.det u).cls.type = .Permutation ↔ ∃ p, u = .perm p := by
  constructor
  · intro h
    rcases u with _ | ⟨_, _⟩ | ⟨k, o⟩ | _ | _ | _ | _ | _ | _ | ⟨_, _⟩ <;> first | exact ⟨_, rfl⟩ | cases h | (cases k <;> cases h)
  · rintro ⟨p, rfl⟩; rfl

theorem cls_ident (u : UGate) : (Gate.det u).cls.type = .I ↔ u = .ident := by
  constructor
  · intro h
    rcases u with _ | ⟨_, _⟩ | ⟨k, o⟩ | _ | _ | _ | _ | _ | _ | ⟨_, _⟩ <;> first | rfl | cases h | (cases k <;> cases h)
  · rintro rfl; rfl

theorem cls_phase (u : UGate) : (Gate.det u).cls.type = .GlobalPhase ↔ ∃ φ o, u = .globalPhase φ o := by
  constructor
  · intro h
    rcases u with _ | ⟨_, _⟩ | ⟨k, o⟩ | _ | _ | _ | _ | _ | _ | ⟨_, _⟩ <;> first | exact ⟨_, _, rfl⟩ | cases h | (cases k <;> cases h)
  · rintro ⟨φ, o, rfl⟩; rfl

/-- the phase of a global phase without controls -/
def freePhaseOf : UGate → Option ℝ
  | .globalPhase φ o => if o.c = 0 then some φ else none
  | _ => none

theorem freePhase_make (u : UGate) : (detMake u).freePhase = .ok (freePhaseOf u) := by
  unfold TGate.freePhase
  rw [make_tag, make_obj]
  by_cases h : (Gate.det u).cls.type = .GlobalPhase
  · obtain ⟨φ, o, rfl⟩ := (cls_phase u).1 h
    rw [if_pos h]; rfl
  · rw [if_neg h]
    have : ∀ φ o, u ≠ .globalPhase φ o := fun φ o e => h ((cls_phase u).2 ⟨φ, o, e⟩)
    congr 1
    unfold freePhaseOf
    split
    · next φ o => exact absurd rfl (this φ o)
    · rfl

theorem mergeGate_perm_left (p : PermGate) (b : UGate) : mergeGate (.perm p) b = .error (.throw "merge_gate: PermutationGate is not supported.") := rfl

theorem mergeGate_perm_right (a : UGate) (p : PermGate) : mergeGate a (.perm p) = .error (.throw "merge_gate: PermutationGate is not supported.") := by
  cases a <;> rfl

theorem mergeGate_ident_left {b : UGate} (hb : ∀ p, b ≠ .perm p) : mergeGate .ident b = .ok (b, 0) := by
  cases b with
  | perm p => exact absurd rfl (hb p)
  | _ => rfl

theorem mergeGate_ident_right {a : UGate} (ha : ∀ p, a ≠ .perm p) : mergeGate a .ident = .ok (a, 0) := by
  cases a with
  | perm p => exact absurd rfl (ha p)
  | _ => rfl

theorem mergeGate_phase_left {a b : UGate} (ha : ∀ p, a ≠ .perm p) (hb : ∀ p, b ≠ .perm p) (hb' : b ≠ .ident) {φ : ℝ} (h : freePhaseOf a = some φ) :
    mergeGate a b = .ok (b, φ) := by
  cases a with
  | globalPhase ψ o =>
    have h : (if o.c = 0 then some ψ else none) = some φ := h
    cases b with
    | perm p => exact absurd rfl (hb p)
    | ident => exact absurd rfl hb'
    | _ => unfold mergeGate; dsimp only; rw [h]; rfl
  | _ => cases h

theorem mergeGate_phase_right {a b : UGate} (ha : ∀ p, a ≠ .perm p) (ha' : a ≠ .ident) (hb : ∀ p, b ≠ .perm p) (hn : freePhaseOf a = none) {φ : ℝ}
    (h : freePhaseOf b = some φ) : mergeGate a b = .ok (a, φ) := by
  cases b with
  | globalPhase ψ o =>
    have h : (if o.c = 0 then some ψ else none) = some φ := h
    cases a with
    | perm p => exact absurd rfl (ha p)
    | ident => exact absurd rfl ha'
    | globalPhase χ o' =>
      have hn : (if o'.c = 0 then some χ else none) = none := hn
      unfold mergeGate; dsimp only; rw [h, hn]; rfl
    | _ => unfold mergeGate; dsimp only; rw [h]; rfl
  | _ => cases h

/-- **merging gates made by factories** -/
theorem mergeTagged_make (a b : UGate) : mergeTagged (detMake a) (detMake b) = (mergeGate a b).map fun r => (detMake r.1, r.2) := by
  unfold mergeTagged
  rw [make_tag, make_tag, make_obj, make_obj]
  have hp : ¬ ((Gate.det a).cls.type = .Probabilistic ∨ (Gate.det b).cls.type = .Probabilistic) :=
    fun h => h.elim (det_not_prob a) (det_not_prob b)
  rw [if_neg hp]
  by_cases hm : (Gate.det a).cls.type = .Permutation ∨ (Gate.det b).cls.type = .Permutation
  · rw [if_pos hm]
    rcases hm with h | h
    · obtain ⟨p, rfl⟩ := (cls_perm a).1 h
      rw [mergeGate_perm_left]; rfl
    · obtain ⟨p, rfl⟩ := (cls_perm b).1 h
      rw [mergeGate_perm_right]; rfl
  · rw [if_neg hm]
    have ha : ∀ p, a ≠ .perm p := fun p e => hm (.inl ((cls_perm a).2 ⟨p, e⟩))
    have hb : ∀ p, b ≠ .perm p := fun p e => hm (.inr ((cls_perm b).2 ⟨p, e⟩))
    show (if (Gate.det a).cls.type = .I then _ else _) = _
    by_cases h1 : (Gate.det a).cls.type = .I
    · rw [if_pos h1]
      obtain rfl := (cls_ident a).1 h1
      rw [mergeGate_ident_left hb]; rfl
    · rw [if_neg h1]
      have ha' : a ≠ .ident := fun e => h1 ((cls_ident a).2 e)
      by_cases h2 : (Gate.det b).cls.type = .I
      · rw [if_pos h2]
        obtain rfl := (cls_ident b).1 h2
        rw [mergeGate_ident_right ha]; rfl
      · rw [if_neg h2]
        have hb' : b ≠ .ident := fun e => h2 ((cls_ident b).2 e)
        show (do
          match ← (detMake a).freePhase with
          | some φ => pure (detMake b, φ)
          | none => _) = _
        rw [freePhase_make, ok_bind]
        cases hfa : freePhaseOf a with
        | some φ => rw [mergeGate_phase_left ha hb hb' hfa]; rfl
        | none =>
          dsimp only
          rw [freePhase_make, ok_bind]
          cases hfb : freePhaseOf b with
          | some φ => rw [mergeGate_phase_right ha ha' hb hfa hfb]; rfl
          | none =>
            dsimp only
            rw [if_neg (fun h => h.elim (gateClass_type_ne _) (gateClass_type_ne _))]
            show (do
              let (g, φ) ← (do
                let (g, φ) ← mergeGate a b
                pure (Gate.det g, φ))
              pure (TGate.make g, φ)) = _
            cases mergeGate a b <;> rfl

/-! ## optimisation -/

/-- the state of the optimisation with fields -/
def optUp (s : OptState) : TOptState :=
  ⟨s.gates.map TItem.make, s.conds, s.phase, s.pool.map detMake, s.waiting, s.log.map fun p => (detMake p.1, detMake p.2)⟩

theorem push_up (s : OptState) (g : Item) (c : Option Condition) : (optUp s).push (TItem.make g) c = (s.push g c).map optUp := by
  unfold TOptState.push OptState.push
  rw [plain_make]
  show (do let w ← markAll s.waiting _ none; _) = _
  cases markAll s.waiting (Item.operandList g) none with
  | error e => rfl
  | ok w =>
    show (.ok _ : Res TOptState) = .ok _
    congr 1
    unfold optUp
    dsimp only
    rw [List.map_append]; rfl

theorem wait_up (s : OptState) (g : UGate) : (optUp s).wait (detMake g) = (s.wait g).map optUp := by
  unfold TOptState.wait OptState.wait
  rw [make_obj, show (optUp s).pool.length = s.pool.length from List.length_map _]
  show (do let w ← markAll s.waiting g.operandQubitList (some s.pool.length); _) = _
  cases markAll s.waiting g.operandQubitList (some s.pool.length) with
  | error e => rfl
  | ok w =>
    show (.ok _ : Res TOptState) = .ok _
    congr 1
    unfold optUp
    dsimp only
    rw [List.map_append]; rfl

theorem waitingIndices_up (s : OptState) (g : Item) : (optUp s).waitingIndices (TItem.make g) = s.waitingIndices g := by
  unfold TOptState.waitingIndices OptState.waitingIndices
  rw [plain_make]; rfl

theorem elemAt_map {α β : Type} (f : α → β) (l : List α) (i : Nat) : elemAt (l.map f) i = (elemAt l i).map f := by
  unfold elemAt
  rw [List.getElem?_map]
  cases l[i]? <;> rfl

theorem pushAll_up (is : List Nat) : ∀ s : OptState, (optUp s).pushAll is = (s.pushAll is).map optUp := by
  induction is with
  | nil => intro s; rfl
  | cons i is ih =>
    intro s
    unfold TOptState.pushAll OptState.pushAll
    rw [List.foldlM_cons, List.foldlM_cons, show (optUp s).pool = s.pool.map detMake from rfl, elemAt_map]
    cases elemAt s.pool i with
    | error e => rfl
    | ok g =>
      rw [show Except.map detMake (.ok g : Res UGate) = .ok (detMake g) from rfl, ok_bind, ok_bind]
      have := push_up s (.inl (.det g)) none
      rw [show TItem.make (.inl (.det g)) = .inl (detMake g) from rfl] at this
      rw [this]
      cases s.push (.inl (.det g)) none with
      | error e => rfl
      | ok s1 => exact ih s1

theorem newlyApplied_up (s : OptState) (g : Item) : (optUp s).newlyApplied (TItem.make g) = s.newlyApplied g := by
  unfold TOptState.newlyApplied OptState.newlyApplied
  rw [plain_make]; rfl

theorem isPauli_make (u : UGate) : (detMake u).isPauli = isPauli u := by
  rcases u with _ | ⟨_, _⟩ | ⟨k, o⟩ | _ | _ | _ | _ | _ | _ | ⟨_, _⟩ <;> first | rfl | (cases k <;> rfl)

theorem isPurePauli_make (u : UGate) : (detMake u).isPurePauli = .ok (isPurePauli u) := by
  unfold TGate.isPurePauli isPurePauli
  rw [isPauli_make]; rfl

theorem allPurePauli_make : ∀ l : List UGate, allPurePauli (l.map detMake) = .ok (l.all isPurePauli)
  | [] => rfl
  | u :: l => by
    rw [List.map_cons, List.all_cons]
    unfold allPurePauli
    rw [isPurePauli_make, ok_bind]
    cases isPurePauli u
    · rfl
    · exact allPurePauli_make l

theorem mapM_elemAt_map {α β : Type} (f : α → β) (l : List α) (is : List Nat) :
    is.mapM (elemAt (l.map f)) = (is.mapM (elemAt l)).map (List.map f) := by
  induction is with
  | nil => rfl
  | cons i is ih =>
    rw [List.mapM_cons, List.mapM_cons, ih, elemAt_map]
    cases elemAt l i with
    | error e => rfl
    | ok a => cases is.mapM (elemAt l) <;> rfl

theorem shouldMerge_up (s : OptState) (mb : Nat) (g : UGate) (is : List Nat) :
    (optUp s).shouldMerge mb (detMake g) is = s.shouldMerge mb g is := by
  unfold TOptState.shouldMerge OptState.shouldMerge
  have := newlyApplied_up s (.inl (.det g))
  rw [show TItem.make (.inl (.det g)) = .inl (detMake g) from rfl] at this
  rw [this]
  cases s.newlyApplied (.inl (.det g)) with
  | error e => rfl
  | ok newly =>
    rw [ok_bind, ok_bind, show (optUp s).pool = s.pool.map detMake from rfl, mapM_elemAt_map]
    cases is.mapM (elemAt s.pool) with
    | error e => rfl
    | ok prev =>
      rw [show Except.map (List.map detMake) (.ok prev : Res (List UGate)) = .ok (prev.map detMake) from rfl, ok_bind, ok_bind]
      dsimp only
      rw [isPurePauli_make, ok_bind, allPurePauli_make]
      have hall : (if isPurePauli g = true then (.ok (prev.all isPurePauli) : Res Bool) else pure false) =
          .ok (isPurePauli g && prev.all isPurePauli) := by
        cases isPurePauli g <;> rfl
      rw [hall, ok_bind, List.foldl_map]
      rcases prev with _ | ⟨p, _ | ⟨q, prev⟩⟩
      · rfl
      · show (.ok _ : Res Bool) = .ok _
        congr 1
        rw [isPauli_make, isPauli_make]
        rfl
      · rfl

theorem mergeAll_up (is : List Nat) : ∀ (s : OptState) (g : UGate),
    (optUp s).mergeAll (detMake g) is = (s.mergeAll g is).map fun r => (optUp r.1, detMake r.2) := by
  induction is with
  | nil => intro s g; rfl
  | cons i is ih =>
    intro s g
    unfold TOptState.mergeAll OptState.mergeAll
    rw [List.foldlM_cons, List.foldlM_cons, show ((optUp s), detMake g).1.pool = s.pool.map detMake from rfl, elemAt_map]
    cases elemAt s.pool i with
    | error e => rfl
    | ok p =>
      rw [show Except.map detMake (.ok p : Res UGate) = .ok (detMake p) from rfl, ok_bind, ok_bind, mergeTagged_make]
      cases mergeGate p g with
      | error e => rfl
      | ok r =>
        have := ih { s with phase := s.phase + r.2, log := s.log ++ [(p, g)] } r.1
        refine Eq.trans ?_ this
        unfold TOptState.mergeAll
        rw [show Except.map (fun r => (detMake r.1, r.2)) (.ok r : Res (UGate × ℝ)) = .ok (detMake r.1, r.2) from rfl, ok_bind]
        have : (pure ({ (optUp s) with phase := (optUp s).phase + r.2, log := (optUp s).log ++ [(detMake p, detMake g)] }, detMake r.1) :
            Res (TOptState × TGate)) = .ok (optUp { s with phase := s.phase + r.2, log := s.log ++ [(p, g)] }, detMake r.1) := by
          show (.ok _ : Res (TOptState × TGate)) = .ok _
          congr 2
          unfold optUp
          dsimp only
          rw [List.map_append]; rfl
        dsimp only
        rw [this, ok_bind]

theorem mergeable_up (s : OptState) (mb : Nat) (g : UGate) : (optUp s).mergeable mb (detMake g) = (s.mergeable mb g).map optUp := by
  unfold TOptState.mergeable OptState.mergeable
  have := waitingIndices_up s (.inl (.det g))
  rw [show TItem.make (.inl (.det g)) = .inl (detMake g) from rfl] at this
  rw [this]
  cases s.waitingIndices (.inl (.det g)) with
  | error e => rfl
  | ok is =>
    rw [ok_bind, ok_bind]
    by_cases h : is = []
    · rw [if_pos h, if_pos h, wait_up]
    · rw [if_neg h, if_neg h, shouldMerge_up]
      cases s.shouldMerge mb g is with
      | error e => rfl
      | ok m =>
        rw [ok_bind, ok_bind]
        cases m
        · show (do let s ← (optUp s).pushAll is; s.wait (detMake g)) = _
          rw [pushAll_up]
          show _ = (do let s ← s.pushAll is; s.wait g).map optUp
          cases s.pushAll is with
          | error e => rfl
          | ok s1 => exact wait_up s1 g
        · show (do let r ← (optUp s).mergeAll (detMake g) is; r.1.wait r.2) = _
          rw [mergeAll_up]
          show _ = (do let r ← s.mergeAll g is; r.1.wait r.2).map optUp
          cases s.mergeAll g is with
          | error e => rfl
          | ok r => exact wait_up r.1 r.2

theorem pushItem_up (s : OptState) (g : Item) (c : Option Condition) : (optUp s).pushItem (TItem.make g) c = (s.pushItem g c).map optUp := by
  unfold TOptState.pushItem OptState.pushItem
  rw [waitingIndices_up]
  cases s.waitingIndices g with
  | error e => rfl
  | ok is =>
    rw [ok_bind, ok_bind, pushAll_up]
    cases s.pushAll is with
    | error e => rfl
    | ok s1 => exact push_up s1 g c

theorem step_up (mb : Nat) (s : OptState) (c : Option Condition) (g : Item) :
    (optUp s).step mb c (TItem.make g) = (s.step mb c g).map optUp := by
  rcases c with _ | c
  · rcases g with (u | t | m) | ⟨p, k⟩
    · show (if (Gate.det u).cls.type = .Probabilistic ∨ (Gate.det u).cls.type = .Measurement then _
        else if (Gate.det u).cls.type = .I then (.ok (optUp s) : Res TOptState)
        else do
          match ← (detMake u).freePhase with
          | some φ => pure { (optUp s) with phase := (optUp s).phase + φ }
          | none => (optUp s).mergeable mb (detMake u)) = _
      rw [if_neg (fun h => h.elim (det_not_prob u) (det_not_meas u))]
      by_cases h1 : (Gate.det u).cls.type = .I
      · rw [if_pos h1]
        obtain rfl := (cls_ident u).1 h1
        rfl
      · rw [if_neg h1, freePhase_make, ok_bind, mergeable_up]
        cases u with
        | ident => exact absurd rfl h1
        | globalPhase φ o =>
          unfold OptState.step freePhaseOf
          dsimp only
          by_cases hc : o.c = 0
          · rw [if_pos hc, if_pos hc]; rfl
          · rw [if_neg hc, if_neg hc]
        | _ => rfl
    · exact pushItem_up s (.inl (.prob t)) none
    · exact pushItem_up s (.inl (.meas m)) none
    · exact pushItem_up s (.inr (p, k)) none
  · have e1 : (optUp s).step mb (some c) (TItem.make g) = (optUp s).pushItem (TItem.make g) (some c) := by
      rcases g with (u | t | m) | ⟨p, k⟩ <;> rfl
    have e2 : s.step mb (some c) g = s.pushItem g (some c) := by
      rcases g with (u | t | m) | ⟨p, k⟩ <;> rfl
    rw [e1, e2, pushItem_up]

theorem foldlM_up {C : Circuit} {mb : Nat} : ∀ (l : List Nat) (s : OptState),
    l.foldlM (fun s idx => do
      let g ← elemAt (TCircuit.make C).gates idx
      let c ← elemAt (TCircuit.make C).conds idx
      TOptState.step mb s c g) (optUp s) =
    (l.foldlM (fun s idx => do
      let g ← elemAt C.gates idx
      let c ← elemAt C.conds idx
      OptState.step mb s c g) s).map optUp
  | [], s => rfl
  | i :: l, s => by
    rw [List.foldlM_cons, List.foldlM_cons, show (TCircuit.make C).gates = C.gates.map TItem.make from rfl, elemAt_map,
      show (TCircuit.make C).conds = C.conds from rfl]
    cases elemAt C.gates i with
    | error e => rfl
    | ok g =>
      rw [show Except.map TItem.make (.ok g : Res Item) = .ok (TItem.make g) from rfl, ok_bind, ok_bind]
      cases elemAt C.conds i with
      | error e => rfl
      | ok c =>
        rw [ok_bind, ok_bind, step_up]
        cases s.step mb c g with
        | error e => rfl
        | ok s1 => exact foldlM_up l s1

theorem finish_up (s : OptState) : (optUp s).finish = s.finish.map optUp := by
  unfold TOptState.finish OptState.finish
  rw [show (optUp s).waiting = s.waiting from rfl, show (optUp s).pool = s.pool.map detMake from rfl, mapM_elemAt_map]
  cases (sortUnique (s.waiting.filterMap id)).mapM (elemAt s.pool) with
  | error e => rfl
  | ok gs =>
    rw [show Except.map (List.map detMake) (.ok gs : Res (List UGate)) = .ok (gs.map detMake) from rfl, ok_bind, ok_bind]
    have hs : (⟨(optUp s).gates ++ (gs.map detMake).map .inl, (optUp s).conds ++ (gs.map detMake).map (fun _ => none), (optUp s).phase,
        s.pool.map detMake, s.waiting, (optUp s).log⟩ : TOptState) =
        optUp { s with gates := s.gates ++ gs.map (fun g => .inl (.det g)), conds := s.conds ++ gs.map (fun _ => none) } := by
      unfold optUp
      dsimp only
      rw [List.map_append, List.map_map, List.map_map, List.map_map]
      rfl
    dsimp only
    by_cases hp : |s.phase| > 1e-12
    · rw [if_pos (show |(optUp s).phase| > 1e-12 from hp), if_pos hp, hs, show (optUp s).phase = s.phase from rfl]
      cases (GateDesc.globalPhase s.phase [] []).build with
      | error e => rfl
      | ok g => exact push_up _ (.inl (.det g)) none
    · rw [if_neg (show ¬ |(optUp s).phase| > 1e-12 from hp), if_neg hp, hs]; rfl

/-- **optimisation of circuits made by factories** -/
theorem optimize_make (C : Circuit) (mb : Nat) : (TCircuit.make C).optimize mb =
    (C.optimize mb).map fun r => (TCircuit.make r.1, r.2.map fun p => (detMake p.1, detMake p.2)) := by
  unfold TCircuit.optimize Circuit.optimize TCircuit.optLoop Circuit.optLoop
  rw [circuit_plain_make, show (TCircuit.make C).gates.length = C.gates.length from List.length_map _]
  have := foldlM_up (C := C) (mb := mb) (List.range C.gates.length) ⟨[], [], 0, [], List.replicate C.requiredQubits none, []⟩
  rw [show optUp ⟨[], [], 0, [], List.replicate C.requiredQubits none, []⟩ = ⟨[], [], 0, [], List.replicate C.requiredQubits none, []⟩ from rfl]
    at this
  rw [this]
  cases (List.range C.gates.length).foldlM (fun s idx => do
      let g ← elemAt C.gates idx
      let c ← elemAt C.conds idx
      OptState.step mb s c g) ⟨[], [], 0, [], List.replicate C.requiredQubits none, []⟩ with
  | error e => rfl
  | ok s =>
    show (do
      let s ← (optUp s).finish
      pure (⟨s.gates, s.conds⟩, s.log) : Res (TCircuit × List (TGate × TGate))) = (do
      let s ← s.finish
      pure (⟨s.gates, s.conds⟩, s.log) : Res (Circuit × List (UGate × UGate))).map _
    rw [finish_up]
    cases s.finish <;> rfl

end Verif.Proofs
