import Verif.Model.CircuitObjects
import Verif.Proofs.Gate2

/-!
# Circuit objects: memory and specification in step
-/

namespace Verif.Proofs
open Verif Verif.Model Verif.Spec

variable {α : Type}

/-- the capacity obtained is at least the number of elements needed -/
def Grows (grow : Nat → Nat) : Prop := ∀ n, n ≤ grow n

theorem push_elems (grow : Nat → Nat) (v : Vec α) (a : α) : (v.push grow a).elems = v.elems ++ [a] := by
  unfold Vec.push; split <;> rfl

theorem push_room {grow : Nat → Nat} {v : Vec α} (a : α) (h : v.elems.length < v.cap) :
    (v.push grow a).cap = v.cap ∧ (v.push grow a).gen = v.gen := by
  unfold Vec.push; rw [if_pos h]; exact ⟨rfl, rfl⟩

theorem reserve_elems (grow : Nat → Nat) (v : Vec α) (n : Nat) : (v.reserve grow n).elems = v.elems := by
  unfold Vec.reserve; split <;> rfl

theorem reserve_cap {grow : Nat → Nat} (hg : Grows grow) (v : Vec α) (n : Nat) : n ≤ (v.reserve grow n).cap := by
  unfold Vec.reserve; split
  · assumption
  · exact hg n

theorem deref_ok {v : Vec α} {i : Nat} {a : α} (h : v.elems[i]? = some a) : v.deref v.gen i = .ok a := by
  unfold Vec.deref; rw [if_neg (by simp), h]

/-- appending another vector -/
theorem appendLoop_other (grow : Nat → Nat) (src : Vec α) : ∀ k i (v : Vec α), k + i = src.elems.length →
    ∃ v', Vec.appendLoop grow false src src.gen k i v = .ok v' ∧ v'.elems = v.elems ++ src.elems.drop i := by
  intro k
  induction k with
  | zero => intro i v h; exact ⟨v, rfl, by rw [List.drop_of_length_le (by omega), List.append_nil]⟩
  | succ k ih =>
    intro i v h
    have hi : i < src.elems.length := by omega
    obtain ⟨v', h1, h2⟩ := ih (i + 1) (v.push grow src.elems[i]) (by omega)
    refine ⟨v', ?_, ?_⟩
    · unfold Vec.appendLoop
      simp only [Bool.false_eq_true, if_false]
      rw [deref_ok (List.getElem?_eq_getElem hi), ok_bind, h1]
    · rw [h2, push_elems, List.append_assoc, List.singleton_append, List.cons_getElem_drop_succ]

/-- a vector appended to itself: there is room, so its storage stays where it is -/
theorem appendLoop_self (grow : Nat → Nat) (src : Vec α) (base : List α) : ∀ k i (v : Vec α), k + i = base.length →
    v.elems = base ++ base.take i → v.elems.length + k ≤ v.cap →
    ∃ v', Vec.appendLoop grow true src v.gen k i v = .ok v' ∧ v'.elems = base ++ base := by
  intro k
  induction k with
  | zero => intro i v h hv _; exact ⟨v, rfl, by rw [hv, List.take_of_length_le (by omega)]⟩
  | succ k ih =>
    intro i v h hv hc
    have hi : i < base.length := by omega
    have hr := push_room (grow := grow) (v := v) base[i] (by omega)
    have hget : v.elems[i]? = some base[i] := by rw [hv, List.getElem?_append_left hi, List.getElem?_eq_getElem hi]
    obtain ⟨v', h1, h2⟩ := ih (i + 1) (v.push grow base[i]) (by omega)
      (by rw [push_elems, hv, List.append_assoc, List.take_append_getElem hi])
      (by rw [push_elems, List.length_append, List.length_singleton, hr.1]; omega)
    refine ⟨v', ?_, h2⟩
    unfold Vec.appendLoop
    simp only [if_true]
    rw [deref_ok hget, ok_bind, ← hr.2, h1]

theorem append_other (grow : Nat → Nat) (v src : Vec α) : ∃ v', v.append grow false src = .ok v' ∧ v'.elems = v.elems ++ src.elems := by
  obtain ⟨v', h1, h2⟩ := appendLoop_other grow src src.elems.length 0 v (by omega)
  exact ⟨v', by unfold Vec.append; simpa using h1, by simpa using h2⟩

theorem append_self {grow : Nat → Nat} (hg : Grows grow) (v src : Vec α) :
    ∃ v', (v.reserve grow (v.elems.length + v.elems.length)).append grow true src = .ok v' ∧ v'.elems = v.elems ++ v.elems := by
  have h0 := reserve_elems grow v (v.elems.length + v.elems.length)
  have hc := reserve_cap hg v (v.elems.length + v.elems.length)
  obtain ⟨v', h1, h2⟩ := appendLoop_self grow src v.elems v.elems.length 0 (v.reserve grow (v.elems.length + v.elems.length)) (by omega)
    (by rw [h0]; simp) (by rw [h0]; exact hc)
  refine ⟨v', ?_, h2⟩
  unfold Vec.append
  simp only [if_true]
  rw [h0, h1]

theorem moveLoop_other (grow : Nat → Nat) : ∀ k i (v src : Vec (Option α)), k + i = src.elems.length →
    ∃ v' src', Vec.moveLoop grow false src.gen k i v src = .ok (v', src') ∧ v'.elems = v.elems ++ src.elems.drop i := by
  intro k
  induction k with
  | zero => intro i v src h; exact ⟨v, src, rfl, by rw [List.drop_of_length_le (by omega), List.append_nil]⟩
  | succ k ih =>
    intro i v src h
    have hi : i < src.elems.length := by omega
    obtain ⟨v', src', h1, h2⟩ := ih (i + 1) (v.push grow src.elems[i]) { src with elems := src.elems.set i none } (by simp; omega)
    refine ⟨v', src', ?_, ?_⟩
    · unfold Vec.moveLoop
      simp only [Bool.false_eq_true, if_false]
      rw [deref_ok (List.getElem?_eq_getElem hi), ok_bind]
      exact h1
    · rw [h2, push_elems, List.append_assoc, List.singleton_append]
      dsimp only
      rw [List.drop_set_of_lt (by omega), List.cons_getElem_drop_succ]

theorem moveAppend_other (grow : Nat → Nat) (v src : Vec (Option α)) :
    ∃ v' src', v.moveAppend grow false src = .ok (v', src') ∧ v'.elems = v.elems ++ src.elems := by
  obtain ⟨v', src', h1, h2⟩ := moveLoop_other grow src.elems.length 0 v src (by omega)
  exact ⟨v', src', by unfold Vec.moveAppend; simpa using h1, by simpa using h2⟩

/-! ## objects -/

/-- the object shows the lines -/
def ShowsLines (C : CircObj) (l : List CircLine) : Prop :=
  C.gates.elems = l.map (fun e => some e.item) ∧ C.conds.elems = l.map (fun e => some e.cond)

theorem showsLines_new : ShowsLines CircObj.new [] := ⟨rfl, rfl⟩

theorem showsLines_item {C : CircObj} {l : List CircLine} (h : ShowsLines C l) (grow : Nat → Nat) (g : Item) :
    ShowsLines (C.addItem grow g) (l ++ [⟨g, none⟩]) := by
  unfold CircObj.addItem
  refine ⟨?_, ?_⟩
  · show (Vec.push grow _ _).elems = _
    rw [push_elems, h.1, List.map_append]; rfl
  · show (Vec.push grow _ _).elems = _
    rw [push_elems, h.2, List.map_append]; rfl

theorem showsLines_conditional {C : CircObj} {l : List CircLine} (h : ShowsLines C l) (grow : Nat → Nat) (g : Item) (c : Condition) :
    ∃ C', C.addConditional grow g c = .ok C' ∧ ShowsLines C' (l ++ [⟨g, some c⟩]) := by
  have h1 := showsLines_item h grow g
  unfold CircObj.addConditional
  have h2 : (C.addItem grow g).conds.elems ≠ [] := by rw [h1.2]; simp
  refine ⟨_, by unfold Vec.setBack; simp only [if_neg h2]; rfl, ?_, ?_⟩
  · show (C.addItem grow g).gates.elems = _
    rw [h1.1, List.map_append, List.map_append]; rfl
  · show (C.addItem grow g).conds.elems.dropLast ++ _ = _
    rw [h1.2, List.map_append]
    simp

theorem showsLines_copy {C : CircObj} {l : List CircLine} (h : ShowsLines C l) (grow : Nat → Nat) :
    ∃ C', C.copy grow = .ok C' ∧ ShowsLines C' l := by
  obtain ⟨v', h1, h2⟩ := append_other grow (Vec.empty.reserve grow C.gates.elems.length) C.gates
  refine ⟨⟨v', Vec.empty.assign grow C.conds⟩, by unfold CircObj.copy; simp only [h1, ok_bind], ?_, h.2⟩
  show v'.elems = _
  rw [h2, reserve_elems, h.1]; rfl

theorem showsLines_addCircuit {grow : Nat → Nat} {C D : CircObj} {l l' : List CircLine} (hC : ShowsLines C l)
    (hD : ShowsLines D l') : ∃ C', C.addCircuit grow false D = .ok C' ∧ ShowsLines C' (l ++ l') := by
  obtain ⟨g, h1, h2⟩ := append_other grow (C.gates.reserve grow (C.gates.elems.length + D.gates.elems.length)) D.gates
  obtain ⟨c, h3, h4⟩ := append_other grow (C.conds.reserve grow (C.conds.elems.length + D.conds.elems.length)) D.conds
  refine ⟨⟨g, c⟩, ?_, ?_, ?_⟩
  · unfold CircObj.addCircuit
    simp only [Bool.false_eq_true, if_false]
    rw [h1, ok_bind, h3, ok_bind]
  · show g.elems = _
    rw [h2, reserve_elems, hC.1, hD.1, List.map_append]
  · show c.elems = _
    rw [h4, reserve_elems, hC.2, hD.2, List.map_append]

theorem showsLines_addSelf {grow : Nat → Nat} (hg : Grows grow) {C : CircObj} (D : CircObj) {l : List CircLine} (hC : ShowsLines C l) :
    ∃ C', C.addCircuit grow true D = .ok C' ∧ ShowsLines C' (l ++ l) := by
  obtain ⟨g, h1, h2⟩ := append_self hg C.gates C.gates
  obtain ⟨c, h3, h4⟩ := append_self hg C.conds C.conds
  refine ⟨⟨g, c⟩, ?_, ?_, ?_⟩
  · unfold CircObj.addCircuit
    simp only [if_true]
    rw [h1, ok_bind, h3, ok_bind]
  · show g.elems = _
    rw [h2, hC.1, List.map_append]
  · show c.elems = _
    rw [h4, hC.2, List.map_append]

theorem showsLines_move {grow : Nat → Nat} {C D : CircObj} {l l' : List CircLine} (hC : ShowsLines C l)
    (hD : ShowsLines D l') : ∃ C' D', C.addCircuitMove grow false D = .ok (C', D') ∧ ShowsLines C' (l ++ l') := by
  obtain ⟨g, g', h1, h2⟩ := moveAppend_other grow (C.gates.reserve grow (C.gates.elems.length + D.gates.elems.length)) D.gates
  obtain ⟨c, c', h3, h4⟩ := moveAppend_other grow (C.conds.reserve grow (C.conds.elems.length + D.conds.elems.length)) D.conds
  refine ⟨⟨g, c⟩, ⟨g', c'⟩, ?_, ?_, ?_⟩
  · unfold CircObj.addCircuitMove
    simp only [Bool.false_eq_true, if_false]
    rw [h1, ok_bind]
    dsimp only
    rw [h3, ok_bind]
  · show g.elems = _
    rw [h2, reserve_elems, hC.1, hD.1, List.map_append]
  · show c.elems = _
    rw [h4, reserve_elems, hC.2, hD.2, List.map_append]

structure CircRel (h : CircHeap) (s : CircStore) : Prop where
  len : h.objs.length = s.objs
  name : h.name = s.name
  valid : ∀ x k, s.name x = some k → k < s.objs
  lines : ∀ k l, s.lines k = some l → ∃ C, h.objs[k]? = some C ∧ ShowsLines C l

theorem circ_name {h : CircHeap} {s : CircStore} (H : CircRel h s) {x : String} {k : Nat} (hx : s.name x = some k) :
    ∃ C, h.find x = .ok (k, C) ∧ h.objs[k]? = some C := by
  have hk : k < h.objs.length := by rw [H.len]; exact H.valid x k hx
  refine ⟨h.objs[k], ?_, List.getElem?_eq_getElem hk⟩
  unfold CircHeap.find
  simp only [H.name, hx, List.getElem?_eq_getElem hk]

theorem circ_find {h : CircHeap} {s : CircStore} (H : CircRel h s) {x : String} {k : Nat} {l : List CircLine} (hx : s.find x = some (k, l)) :
    ∃ C, h.find x = .ok (k, C) ∧ ShowsLines C l ∧ s.name x = some k := by
  unfold CircStore.find at hx
  cases hn : s.name x with
  | none => rw [hn] at hx; cases hx
  | some k' =>
    cases hl : s.lines k' with
    | none => simp [hn, hl] at hx
    | some l' =>
      simp only [hn, hl, Option.some.injEq, Prod.mk.injEq] at hx
      obtain ⟨rfl, rfl⟩ := hx
      obtain ⟨C, h1, h2⟩ := circ_name H hn
      obtain ⟨C', h3, h4⟩ := H.lines k' l' hl
      rw [h2] at h3; cases h3
      exact ⟨C, h1, h4, rfl⟩

theorem circ_fresh {h : CircHeap} {s : CircStore} (H : CircRel h s) (x : String) {C : CircObj} {l : List CircLine} (hC : ShowsLines C l) :
    CircRel (h.fresh x C) (s.fresh x l) := by
  refine ⟨by simp [CircHeap.fresh, CircStore.fresh, H.len], by simp only [CircHeap.fresh, CircStore.fresh, H.len, H.name], fun y k hy => ?_, fun k l' hk => ?_⟩
  · dsimp only [CircStore.fresh] at hy ⊢
    by_cases hyx : y = x
    · subst hyx; rw [Function.update_self] at hy; cases hy; exact Nat.lt_succ_self _
    · rw [Function.update_of_ne hyx] at hy; exact Nat.lt_succ_of_lt (H.valid y k hy)
  · dsimp only [CircStore.fresh, CircHeap.fresh] at hk ⊢
    by_cases hko : k = s.objs
    · subst hko
      rw [Function.update_self] at hk; cases hk
      exact ⟨C, by rw [← H.len]; simp, hC⟩
    · rw [Function.update_of_ne hko] at hk
      obtain ⟨C', h1, h2⟩ := H.lines k l' hk
      exact ⟨C', by rw [List.getElem?_append_left (List.getElem?_eq_some_iff.1 h1).1, h1], h2⟩

theorem circ_put {h : CircHeap} {s : CircStore} (H : CircRel h s) {k : Nat} (hk : k < s.objs) {C : CircObj} {l : Option (List CircLine)}
    (hC : ∀ l', l = some l' → ShowsLines C l') : CircRel (h.put k C) (s.put k l) := by
  refine ⟨by simpa [CircHeap.put, CircStore.put] using H.len, H.name, H.valid, fun j l' hj => ?_⟩
  dsimp only [CircStore.put, CircHeap.put] at hj ⊢
  by_cases hkj : j = k
  · subst hkj
    rw [Function.update_self] at hj
    exact ⟨C, by rw [List.getElem?_set]; simp [H.len, hk], hC l' hj⟩
  · rw [Function.update_of_ne hkj] at hj
    rw [List.getElem?_set, if_neg (Ne.symm hkj)]
    exact H.lines j l' hj

theorem find_lt {h : CircHeap} {s : CircStore} (H : CircRel h s) {x : String} {k : Nat} (hx : s.name x = some k) : k < s.objs := H.valid x k hx

/-- a command that adds lines -/
theorem circ_extend {h : CircHeap} {s s' : CircStore} (H : CircRel h s) {x : String} {l : List CircLine} (hs : s.extend x l = some s') :
    ∃ k C l0, h.find x = .ok (k, C) ∧ ShowsLines C l0 ∧ s.find x = some (k, l0) ∧ ∀ C', ShowsLines C' (l0 ++ l) → CircRel (h.put k C') s' := by
  unfold CircStore.extend at hs
  cases hf : s.find x with
  | none => rw [hf] at hs; cases hs
  | some p =>
    obtain ⟨k, l0⟩ := p
    simp only [hf, Option.some.injEq] at hs
    subst hs
    obtain ⟨C, h1, h2, h3⟩ := circ_find H hf
    exact ⟨k, C, l0, h1, h2, rfl, fun C' hC' => circ_put H (find_lt H h3) (by rintro l' ⟨⟩; exact hC')⟩

theorem circ_step {grow : Nat → Nat} (hg : Grows grow) {h : CircHeap} {s s' : CircStore} (H : CircRel h s) {c : CircCmd} (hs : s.step c = some s') :
    ∃ h', h.step grow c = .ok h' ∧ CircRel h' s' := by
  cases c with
  | new x =>
    cases hs
    exact ⟨_, rfl, circ_fresh H x showsLines_new⟩
  | same x y =>
    dsimp only [CircStore.step] at hs
    cases hn : s.name y with
    | none => rw [hn] at hs; cases hs
    | some k =>
      rw [hn] at hs; cases hs
      obtain ⟨C, h1, -⟩ := circ_name H hn
      refine ⟨{ h with name := Function.update h.name x (some k) }, by unfold CircHeap.step; dsimp only; rw [h1]; rfl,
        H.len, ?_, fun z j hz => ?_, H.lines⟩
      · show Function.update h.name x (some k) = _
        rw [H.name]
      · dsimp only at hz ⊢
        by_cases hzx : z = x
        · subst hzx; rw [Function.update_self] at hz; cases hz; exact H.valid y k hn
        · rw [Function.update_of_ne hzx] at hz; exact H.valid z j hz
  | copy x y =>
    dsimp only [CircStore.step] at hs
    cases hf : s.find y with
    | none => rw [hf] at hs; cases hs
    | some p =>
      obtain ⟨k, l⟩ := p
      rw [hf] at hs; cases hs
      obtain ⟨C, h1, h2, -⟩ := circ_find H hf
      obtain ⟨C', h3, h4⟩ := showsLines_copy h2 grow
      exact ⟨_, by unfold CircHeap.step; dsimp only; rw [h1, ok_bind]; dsimp only; rw [h3]; rfl, circ_fresh H x h4⟩
  | assign x y =>
    dsimp only [CircStore.step] at hs
    cases hn : s.name x with
    | none => rw [hn] at hs; cases hs
    | some k =>
      cases hf : s.find y with
      | none => rw [hn, hf] at hs; cases hs
      | some p =>
        obtain ⟨k', l⟩ := p
        rw [hn, hf] at hs; cases hs
        obtain ⟨C, h1, -⟩ := circ_name H hn
        obtain ⟨D, h2, h3, -⟩ := circ_find H hf
        refine ⟨_, by unfold CircHeap.step; dsimp only; rw [h1, ok_bind, h2]; rfl, circ_put H (H.valid x k hn) ?_⟩
        rintro l' ⟨⟩
        exact h3
  | addGate x g =>
    obtain ⟨k, C, l0, h1, h2, -, h4⟩ := circ_extend H hs
    exact ⟨_, by unfold CircHeap.step; dsimp only; rw [h1]; rfl, h4 _ (showsLines_item h2 grow _)⟩
  | addParamGate x g key =>
    obtain ⟨k, C, l0, h1, h2, -, h4⟩ := circ_extend H hs
    exact ⟨_, by unfold CircHeap.step; dsimp only; rw [h1]; rfl, h4 _ (showsLines_item h2 grow _)⟩
  | addConditionalGate x g c =>
    obtain ⟨k, C, l0, h1, h2, -, h4⟩ := circ_extend H hs
    obtain ⟨C', h5, h6⟩ := showsLines_conditional h2 grow (.inl g) c
    exact ⟨_, by unfold CircHeap.step; dsimp only; rw [h1, ok_bind]; dsimp only; rw [h5]; rfl, h4 _ h6⟩
  | addConditionalParamGate x g key c =>
    obtain ⟨k, C, l0, h1, h2, -, h4⟩ := circ_extend H hs
    obtain ⟨C', h5, h6⟩ := showsLines_conditional h2 grow (.inr (g, key)) c
    exact ⟨_, by unfold CircHeap.step; dsimp only; rw [h1, ok_bind]; dsimp only; rw [h5]; rfl, h4 _ h6⟩
  | addCircuit x y =>
    dsimp only [CircStore.step] at hs
    cases hf : s.find y with
    | none => rw [hf] at hs; cases hs
    | some p =>
      obtain ⟨k', l'⟩ := p
      rw [hf] at hs
      obtain ⟨k, C, l0, h1, h2, h3, h4⟩ := circ_extend H hs
      obtain ⟨D, h5, h6, -⟩ := circ_find H hf
      have key : ∃ C', C.addCircuit grow (decide (k = k')) D = .ok C' ∧ ShowsLines C' (l0 ++ l') := by
        by_cases hk : k = k'
        · subst hk
          have hl : l' = l0 := by
            unfold CircStore.find at h3 hf
            split at h3
            · cases h3
            · split at h3
              · cases h3
              · rename_i e3
                cases h3
                split at hf
                · cases hf
                · split at hf
                  · cases hf
                  · rename_i e4
                    cases hf
                    rw [e3] at e4
                    cases e4; rfl
          subst hl
          rw [decide_eq_true rfl]
          exact showsLines_addSelf hg D h2
        · rw [decide_eq_false hk]
          exact showsLines_addCircuit h2 h6
      obtain ⟨C', h7, h8⟩ := key
      refine ⟨_, ?_, h4 _ h8⟩
      unfold CircHeap.step; dsimp only
      rw [h1, ok_bind, h5, ok_bind]; dsimp only
      rw [h7]; rfl
  | addCircuitMove x y =>
    dsimp only [CircStore.step] at hs
    cases hf : s.find x with
    | none => rw [hf] at hs; cases hs
    | some p =>
      obtain ⟨k, l⟩ := p
      cases hf' : s.find y with
      | none => rw [hf, hf'] at hs; cases hs
      | some p' =>
        obtain ⟨k', l'⟩ := p'
        simp only [hf, hf'] at hs
        split at hs
        · cases hs
        · rename_i hk
          cases hs
          obtain ⟨C, h1, h2, h3⟩ := circ_find H hf
          obtain ⟨D, h4, h5, h6⟩ := circ_find H hf'
          obtain ⟨C', D', h7, h8⟩ := showsLines_move (grow := grow) h2 h5
          refine ⟨_, ?_, circ_put (circ_put H (find_lt H h3) (C := C') (l := some (l ++ l')) (by rintro l1 ⟨⟩; exact h8))
            (find_lt H h6) (C := D') (by rintro l1 ⟨⟩)⟩
          unfold CircHeap.step; dsimp only
          rw [h1, ok_bind, h4, ok_bind]; dsimp only
          rw [decide_eq_false hk, h7]; rfl

theorem circ_run {grow : Nat → Nat} (hg : Grows grow) {P : List CircCmd} : ∀ {h : CircHeap} {s s' : CircStore}, CircRel h s → s.run P = some s' →
    ∃ h', h.run grow P = .ok h' ∧ CircRel h' s' := by
  induction P with
  | nil => intro h s s' H hs; cases hs; exact ⟨h, rfl, H⟩
  | cons c cs ih =>
    intro h s s' H hs
    unfold CircStore.run at hs
    unfold CircHeap.run
    cases hc : s.step c with
    | none => rw [hc] at hs; cases hs
    | some s1 =>
      rw [hc] at hs
      obtain ⟨h1, h2, h3⟩ := circ_step hg H hc
      rw [h2, ok_bind]
      exact ih h3 hs

theorem circ_empty : CircRel CircHeap.empty CircStore.empty :=
  ⟨rfl, rfl, fun x k h => (by cases h), fun k l h => (by cases h)⟩

end Verif.Proofs
