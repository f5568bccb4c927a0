import Verif.Proofs.CircuitObjects

/-!
# C89: circuits as objects

`CircHeap.run` (Model/CircuitObjects) executes programs on vectors with capacities; `CircStore.run` (Spec/CircuitObjects) has lists only.
-/

namespace Verif.Props
open Verif Verif.Model Verif.Spec Verif.Proofs

/-- what the observers report about an object with the lines `l` -/
structure CircShows (C : CircObj) (l : List CircLine) : Prop where
  value : C.value = .ok ⟨l.map (·.item), l.map (·.cond)⟩
  nGates : C.nGates = l.length
  gateAt : ∀ i (h : i < l.length), C.gateAt i = .ok l[i].item
  paramKeyAt : ∀ i (h : i < l.length), C.paramKeyAt i = .ok (l[i].item.elim (fun _ => none) fun p => some p.2)
  conditionAt : ∀ i (h : i < l.length), C.conditionAt i = .ok l[i].cond
  outside : ∀ i, l.length ≤ i → (∃ m, C.gateAt i = .error (.throw m)) ∧ (∃ m, C.paramKeyAt i = .error (.throw m)) ∧
    ∃ m, C.conditionAt i = .error (.throw m)

theorem mapM_movedFrom {β : Type} (l : List β) : (l.map some).mapM movedFrom = .ok l := by
  induction l with
  | nil => rfl
  | cons a l ih => rw [List.map_cons, List.mapM_cons, ih]; rfl

theorem circShows {C : CircObj} {l : List CircLine} (h : ShowsLines C l) : CircShows C l where
  value := by
    unfold CircObj.value
    rw [h.1, h.2]
    have h1 := mapM_movedFrom (l.map (·.item))
    have h2 := mapM_movedFrom (l.map (·.cond))
    rw [List.map_map] at h1 h2
    simp only [Function.comp_def] at h1 h2
    rw [h1, ok_bind, h2, ok_bind]
  nGates := by unfold CircObj.nGates; rw [h.1, List.length_map]
  gateAt := fun i hi => by
    unfold CircObj.gateAt
    rw [if_neg (by rw [h.1, List.length_map]; omega), h.1, List.getElem?_map, List.getElem?_eq_getElem hi]; rfl
  paramKeyAt := fun i hi => by
    unfold CircObj.paramKeyAt
    rw [if_neg (by rw [h.1, List.length_map]; omega), h.1, List.getElem?_map, List.getElem?_eq_getElem hi]
    show (match l[i].item with | .inl _ => _ | .inr (_, key) => _ : Res (Option String)) = _
    cases l[i].item with
    | inl g => rfl
    | inr p => rfl
  conditionAt := fun i hi => by
    unfold CircObj.conditionAt
    rw [if_neg (by rw [h.1, List.length_map]; omega), h.2, List.getElem?_map, List.getElem?_eq_getElem hi]; rfl
  outside := fun i hi => by
    have h1 : i ≥ C.gates.elems.length := by rw [h.1, List.length_map]; exact hi
    unfold CircObj.gateAt CircObj.paramKeyAt CircObj.conditionAt
    rw [if_pos h1, if_pos h1, if_pos h1]
    exact ⟨⟨_, rfl⟩, ⟨_, rfl⟩, ⟨_, rfl⟩⟩

/-- **C89**: after every program, for every allocation policy, every circuit (unless it was moved from) is the list of lines that the
specification says and all observers report it; no iterator of a replaced storage is used and nothing is read out of range.  This includes
`x.add_circuit(x)`. -/
theorem C89_objects (grow : Nat → Nat) (hg : ∀ n, n ≤ grow n) (P : List CircCmd) (s : CircStore) (hs : CircStore.empty.run P = some s) :
    ∃ h, CircHeap.empty.run grow P = .ok h ∧
      ∀ x k l, s.find x = some (k, l) → ∃ C, h.find x = .ok (k, C) ∧ CircShows C l := by
  obtain ⟨h, h1, h2⟩ := circ_run hg circ_empty hs
  refine ⟨h, h1, fun x k l hx => ?_⟩
  obtain ⟨C, h3, h4, -⟩ := circ_find h2 hx
  exact ⟨C, h3, circShows h4⟩

/-- a circuit is appended to itself under two names, copied, and its copy is changed -/
def C89_program (g g' : Gate) (p : PGate) (c : Condition) : List CircCmd :=
  [.new "x", .addGate "x" g, .addConditionalParamGate "x" p "t" c, .same "y" "x", .addCircuit "x" "y", .copy "z" "x", .addGate "z" g',
    .addCircuitMove "x" "z", .assign "z" "y"]

example (g g' : Gate) (p : PGate) (c : Condition) : ∃ s, CircStore.empty.run (C89_program g g' p c) = some s := ⟨_, rfl⟩

/-- the doubled circuit, followed by the copy with one more gate -/
example (g g' : Gate) (p : PGate) (c : Condition) :
    ∃ h C, CircHeap.empty.run (fun n => 2 * n) (C89_program g g' p c) = .ok h ∧ h.find "x" = .ok (0, C) ∧
      C.value = .ok ⟨[.inl g, .inr (p, "t"), .inl g, .inr (p, "t"), .inl g, .inr (p, "t"), .inl g, .inr (p, "t"), .inl g'],
        [none, some c, none, some c, none, some c, none, some c, none]⟩ := by
  obtain ⟨h, h1, h2⟩ := C89_objects (fun n => 2 * n) (fun n => by omega) (C89_program g g' p c) _ rfl
  obtain ⟨C, h3, h4⟩ := h2 "x" 0 _ rfl
  exact ⟨h, C, h1, h3, h4.value⟩

/-- the command can change the lines of object `k` -/
def Changes (s : CircStore) (k : Nat) : CircCmd → Prop
  | .assign x _ | .addGate x _ | .addParamGate x _ _ | .addConditionalGate x _ _ | .addConditionalParamGate x _ _ _ | .addCircuit x _ =>
    s.name x = some k
  | .addCircuitMove x y => s.name x = some k ∨ s.name y = some k
  | _ => False

theorem find_name {s : CircStore} {x : String} {k : Nat} {l : List CircLine} (h : s.find x = some (k, l)) : s.name x = some k := by
  unfold CircStore.find at h
  split at h
  · cases h
  · split at h
    · cases h
    · rename_i e _ _ _
      cases h
      exact e

theorem extend_other {s s' : CircStore} {x : String} {l : List CircLine} (h : s.extend x l = some s') {k : Nat} (hn : s.name x ≠ some k) :
    s'.lines k = s.lines k := by
  unfold CircStore.extend at h
  split at h
  · cases h
  · rename_i k0 l0 e
    cases h
    exact Function.update_of_ne (fun he => hn (by rw [find_name e, he])) _ _

/-- **C89 (independence)**: only commands on an object change it; in particular a circuit that was appended, copied or assigned to
another one stays what it is when the other one is extended -/
theorem C89_independent {s s' : CircStore} {c : CircCmd} (h : s.step c = some s') {k : Nat} (hk : k < s.objs) (hc : ¬ Changes s k c) :
    s'.lines k = s.lines k := by
  cases c with
  | new x => cases h; exact Function.update_of_ne (Nat.ne_of_lt hk) _ _
  | same x y =>
    dsimp only [CircStore.step] at h
    split at h <;> cases h
    rfl
  | copy x y =>
    dsimp only [CircStore.step] at h
    split at h <;> cases h
    exact Function.update_of_ne (Nat.ne_of_lt hk) _ _
  | assign x y =>
    dsimp only [CircStore.step] at h
    split at h
    · rename_i k0 k1 l e1 e2
      cases h
      exact Function.update_of_ne (fun he => hc (by show s.name x = _; rw [e1, he])) _ _
    · cases h
  | addGate x g => exact extend_other h hc
  | addParamGate x g key => exact extend_other h hc
  | addConditionalGate x g c => exact extend_other h hc
  | addConditionalParamGate x g key c => exact extend_other h hc
  | addCircuit x y =>
    dsimp only [CircStore.step] at h
    split at h
    · cases h
    · exact extend_other h hc
  | addCircuitMove x y =>
    dsimp only [CircStore.step] at h
    split at h
    · rename_i k0 l0 k1 l1 e0 e1
      split at h <;> cases h
      show Function.update (Function.update s.lines k0 _) k1 _ k = _
      rw [Function.update_of_ne (fun he => hc (.inr (by rw [find_name e1, he]))),
        Function.update_of_ne (fun he => hc (.inl (by rw [find_name e0, he])))]
    · cases h

example (g : Gate) : ∃ s s', CircStore.empty.run [.new "x", .addGate "x" g, .copy "y" "x"] = some s ∧ s.step (.addGate "y" g) = some s' ∧
    ¬ Changes s 0 (.addGate "y" g) ∧ s'.lines 0 = some [⟨.inl g, none⟩] ∧ s'.lines 1 = some [⟨.inl g, none⟩, ⟨.inl g, none⟩] :=
  ⟨_, _, rfl, rfl, by rintro ⟨⟩, rfl, rfl⟩

/-- **C89 (what the specification leaves open)**: `x.add_circuit(std::move(x))` moves the gates out of the front half of the vector into
its back half: the circuit then has twice as many entries, the first of which has no value. -/
theorem C89_self_move (g : Gate) :
    ∃ h C, CircHeap.empty.run (fun n => n) [.new "x", .addGate "x" g, .addCircuitMove "x" "x"] = .ok h ∧ h.find "x" = .ok (0, C) ∧
      C.nGates = 2 ∧ C.gateAt 0 = .error (.ub "value of a moved-from object") ∧ C.gateAt 1 = .ok (.inl g) :=
  ⟨_, _, rfl, rfl, rfl, rfl, rfl⟩

end Verif.Props
