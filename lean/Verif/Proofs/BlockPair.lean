import Verif.Proofs.BlockSize

/-! # `Circuit::optimize` on two gates that share a qubit -/

namespace Verif.Proofs
open Verif Verif.Spec Verif.Model
attribute [-simp] BitVec.getLsbD_eq_getElem

theorem eq_singleton_of {l : List Nat} {a : Nat} (hn : l.Nodup) (h : ∀ x, x ∈ l ↔ x = a) : l = [a] := by
  cases l with
  | nil => exact absurd ((h a).2 rfl) (by simp)
  | cons b l =>
    have hb := (h b).1 List.mem_cons_self
    subst hb
    cases l with
    | nil => rfl
    | cons c l =>
      have hc := (h c).1 (by simp)
      subst hc
      simp at hn

theorem newly_eq {s : OptState} {qs : List Nat} (hq : ∀ q ∈ qs, q < s.waiting.length) : qs.filterMapM (fun q => do
      let w ← elemAt s.waiting q
      pure (if w = none then some q else none)) = (.ok (qs.filter fun q => decide (s.waiting[q]? = some none)) : Res (List Nat)) := by
  induction qs with
  | nil => rfl
  | cons a qs ih =>
    have ha := hq a List.mem_cons_self
    rw [List.filterMapM_cons, elemAt_lt ha, ok_bind, ih fun q hx => hq q (List.mem_cons_of_mem _ hx), List.filter_cons, List.getElem?_eq_getElem ha]
    cases hw : s.waiting[a] with
    | none => rw [if_pos rfl, if_pos (by simp)]; rfl
    | some i => rw [if_neg (by simp), if_neg (by simp)]; rfl

/-- a gate the main loop tries to merge -/
def Mergeable (g : UGate) : Prop := g ≠ .ident ∧ ∀ φ o, g = .globalPhase φ o → o.c ≠ 0

theorem step_gate {g : UGate} (h : Mergeable g) (mb : Nat) (s : OptState) : s.step mb none (.inl (.det g)) = s.mergeable mb g := by
  cases g with
  | ident => exact absurd rfl h.1
  | globalPhase φ o =>
    unfold OptState.step
    dsimp only
    rw [if_neg (h.2 φ o rfl)]
  | _ => rfl

variable {N mb : Nat} {g1 g2 : UGate}

/-- after the first gate -/
structure First (N : Nat) (g1 : UGate) (s : OptState) : Prop where
  eq : s = ⟨[], [], 0, [g1], s.waiting, []⟩
  len : s.waiting.length = N
  table : ∀ q : Nat, s.waiting[q]? = if q ∈ g1.operandQubitList then some (some 0) else if q < N then some none else none

theorem first_step (h : Mergeable g1) (hr : InReg N g1) (mb : Nat) :
    ∃ s, OptState.step mb ⟨[], [], 0, [], List.replicate N none, []⟩ none (.inl (.det g1)) = .ok s ∧ First N g1 s := by
  rw [step_gate h]
  have hq : ∀ q ∈ g1.operandQubitList, q < (List.replicate N (none : Option Nat)).length := fun q hq => by
    rw [List.length_replicate]; exact hr q (mem_operandList.1 hq)
  have hP : PoolOK N (fun _ => True) (fun _ => True) ⟨[], [], 0, [], List.replicate N none, []⟩ :=
    ⟨by simp, fun q i hqi => by rw [List.getElem?_replicate] at hqi; split at hqi <;> simp at hqi, by simp, by simp⟩
  obtain ⟨is, his, hi⟩ := hP.indices (it := .inl (.det g1)) fun q hq => hr q (mem_itemList.1 hq)
  have h0 : is = [] := by
    cases is with
    | nil => rfl
    | cons i is => exact absurd (hi i List.mem_cons_self) (by simp)
  subst h0
  obtain ⟨w, hw⟩ := markAll_ok _ _ (some 0) hq
  obtain ⟨e1, -, e3⟩ := markAll_spec hw
  refine ⟨⟨[], [], 0, [g1], w, []⟩, ?_, rfl, by rw [e1]; simp, fun q => by rw [e3, List.getElem?_replicate]⟩
  unfold OptState.mergeable
  rw [his, ok_bind, if_pos rfl]
  unfold OptState.wait
  rw [show ([] : List UGate).length = 0 from rfl, hw]
  rfl

theorem First.indices {s : OptState} (h : First N g1 s) (hr2 : InReg N g2) (hs : ∃ q, UGate.uses g1 q ∧ UGate.uses g2 q) :
    s.waitingIndices (.inl (.det g2)) = .ok [0] := by
  obtain ⟨l, hl⟩ := mapM_total (f := elemAt s.waiting) (l := Item.operandList (.inl (.det g2))) fun q hq' =>
    ⟨_, elemAt_lt (by rw [h.len]; exact hr2 q (mem_itemList.1 hq'))⟩
  have hw : s.waitingIndices (.inl (.det g2)) = .ok (sortUnique (l.filterMap id)) := by
    unfold OptState.waitingIndices
    rw [hl]; rfl
  obtain ⟨h1, h2⟩ := waitingIndices_spec hw
  rw [hw, eq_singleton_of h1 (a := 0) fun x => ?_]
  rw [h2]
  constructor
  · rintro ⟨q, -, hq⟩
    rw [h.table] at hq
    split at hq
    · simpa using hq.symm
    · split at hq <;> simp at hq
  · rintro rfl
    obtain ⟨q, a, b⟩ := hs
    exact ⟨q, mem_itemList.2 b, by rw [h.table, if_pos (mem_operandList.2 a)]⟩

/-- the qubits of the block of two gates -/
def blockMask (g1 g2 : UGate) : U64 := ((g1.operands.t ||| g1.operands.c) ||| (g2.operands.t ||| g2.operands.c)) &&& ~~~(commonControls g2.operands g1.operands)

theorem First.should {s : OptState} (h : First N g1 s) (hv1 : Valid g1) (hv2 : Valid g2) (hr2 : InReg N g2) :
    s.shouldMerge mb g2 [0] = .ok (decide (g2.operands.c = g1.operands.c ∧ g2.operands.v = g1.operands.v ∧ isPauli g2 = true ∧ isPauli g1 = true) ||
      decide ((maskToVector (blockMask g1 g2)).length ≤ mb)) := by
  have hn : s.newlyApplied (.inl (.det g2)) = .ok (g2.operandQubitList.filter fun q => decide (s.waiting[q]? = some none)) :=
    newly_eq (s := s) (qs := Item.operandList (.inl (.det g2))) fun q hq => by rw [h.len]; exact hr2 q (mem_itemList.1 hq)
  have hp : [0].mapM (elemAt s.pool) = .ok [g1] := by rw [h.eq]; rfl
  unfold OptState.shouldMerge
  rw [hn, ok_bind, hp, ok_bind]
  dsimp only [List.foldl_cons, List.foldl_nil]
  -- the number of qubits
  have hsize : (g2.operandQubitList.filter fun q => decide (s.waiting[q]? = some none)).length + g1.operandQubitList.length =
      (maskToVector (blockMask g1 g2)).length + popcount (commonControls g2.operands g1.operands) := by
    rw [← length_maskToVector (commonControls _ _), ← List.length_append, ← List.length_append]
    apply List.Perm.length_eq
    rw [List.perm_ext_iff_of_nodup]
    · intro q
      have hc : q ∈ maskToVector (commonControls g2.operands g1.operands) → UGate.uses g1 q := by
        intro hc
        rw [mem_maskToVector] at hc
        unfold commonControls at hc
        rw [BitVec.getLsbD_and, BitVec.getLsbD_and, Bool.and_eq_true, Bool.and_eq_true] at hc
        unfold UGate.uses
        rw [BitVec.getLsbD_or, hc.1.2, Bool.or_true]
      have hb : q ∈ maskToVector (blockMask g1 g2) ↔ (UGate.uses g1 q ∨ UGate.uses g2 q) ∧ q ∉ maskToVector (commonControls g2.operands g1.operands) := by
        rw [mem_maskToVector, mem_maskToVector]
        unfold blockMask UGate.uses
        rw [BitVec.getLsbD_and, BitVec.getLsbD_or, BitVec.getLsbD_not, Bool.and_eq_true, Bool.or_eq_true, Bool.and_eq_true]
        constructor
        · rintro ⟨a, -, b⟩; exact ⟨a, by simpa using b⟩
        · rintro ⟨a, b⟩
          refine ⟨a, ?_, by simpa using b⟩
          rcases a with a | a <;> simpa using BitVec.lt_of_getLsbD a
      rw [List.mem_append, List.mem_append, hb, List.mem_filter, mem_operandList, mem_operandList, decide_eq_true_eq, h.table]
      by_cases a : UGate.uses g1 q
      · rw [if_pos (mem_operandList.2 a)]
        by_cases c : q ∈ maskToVector (commonControls g2.operands g1.operands) <;> simp [a, c]
      · rw [if_neg fun x => a (mem_operandList.1 x)]
        have c : q ∉ maskToVector (commonControls g2.operands g1.operands) := fun x => a (hc x)
        by_cases b : UGate.uses g2 q
        · simp [a, b, c, hr2 q b]
        · simp [a, b, c]
    · rw [List.nodup_append]
      refine ⟨(maskToVector_nodup _).filter _, maskToVector_nodup _, ?_⟩
      rintro a ha b hb rfl
      rw [List.mem_filter, decide_eq_true_eq, h.table, if_pos hb] at ha
      simp at ha
    · rw [List.nodup_append]
      refine ⟨maskToVector_nodup _, maskToVector_nodup _, ?_⟩
      rintro a ha b hb rfl
      rw [mem_maskToVector] at ha hb
      unfold blockMask at ha
      rw [BitVec.getLsbD_and, BitVec.getLsbD_not, hb] at ha
      simp at ha
  rw [hsize]
  have hsub : sub64 ((maskToVector (blockMask g1 g2)).length + popcount (commonControls g2.operands g1.operands))
      (popcount (commonControls g2.operands g1.operands)) = (maskToVector (blockMask g1 g2)).length := by
    unfold sub64
    rw [if_pos (by omega)]
    omega
  rw [hsub]
  refine congrArg Except.ok ?_
  congr 1
  rw [Bool.eq_iff_iff]
  simp only [Bool.or_eq_true, Bool.and_eq_true, decide_eq_true_eq, List.all_cons, List.all_nil, isPurePauli, and_true]
  constructor
  · rintro (⟨⟨⟨a, b⟩, c⟩, d⟩ | ⟨⟨a, b⟩, c, d⟩)
    · exact ⟨a, b, c, d⟩
    · have z : ∀ x, Valid x → x.operands.c = 0 → x.operands.v = 0 := by
        intro x hx hc
        apply U64.ext
        intro i _
        cases hv : x.operands.v.getLsbD i with
        | false => simp
        | true => have := (valid_operandsOK hx).sub i hv; rw [hc] at this; simp at this
      exact ⟨a.trans c.symm, (z _ hv2 a).trans (z _ hv1 c).symm, b, d⟩
  · rintro ⟨a, b, c, d⟩
    exact .inl ⟨⟨⟨a, b⟩, c⟩, d⟩

theorem finish_single {s : OptState} {g : UGate} {i : Nat} (hp : s.pool[i]? = some g) (hw : ∀ q j : Nat, s.waiting[q]? = some (some j) → j = i)
    (hex : ∃ q : Nat, s.waiting[q]? = some (some i)) :
    (s.phase = 0 → s.finish = .ok { s with gates := s.gates ++ [.inl (.det g)], conds := s.conds ++ [none] }) ∧
    ∃ s', s.finish = .ok s' ∧ s'.log = s.log ∧
      (|s.phase| ≤ 1e-12 → s'.gates = s.gates ++ [.inl (.det g)] ∧ s'.conds = s.conds ++ [none]) ∧
      (1e-12 < |s.phase| → s'.gates = s.gates ++ [.inl (.det g), .inl (.det (.globalPhase s.phase ⟨0, 0, 0⟩))] ∧ s'.conds = s.conds ++ [none, none]) := by
  have hl : sortUnique (s.waiting.filterMap id) = [i] := by
    obtain ⟨h1, h2⟩ := sortUnique_spec (s.waiting.filterMap id)
    refine eq_singleton_of h1 fun x => ?_
    rw [h2, List.mem_filterMap]
    constructor
    · rintro ⟨w, hm, hx⟩
      obtain ⟨q, hq⟩ := List.mem_iff_getElem?.1 hm
      rw [show w = some x from hx] at hq
      exact hw q x hq
    · rintro rfl
      obtain ⟨q, hq⟩ := hex
      exact ⟨some x, List.mem_of_getElem? hq, rfl⟩
  have hm : [i].mapM (elemAt s.pool) = .ok [g] := by
    rw [List.mapM_cons, elemAt_ok.2 hp]; rfl
  have e0 : markAll s.waiting (Item.operandList (.inl (.det (.globalPhase s.phase ⟨0, 0, 0⟩)))) none = .ok s.waiting := by
    rw [show Item.operandList (.inl (.det (.globalPhase s.phase ⟨0, 0, 0⟩))) = [] by
      show maskToVector ((0 : U64) ||| 0) = []
      rw [show (0 : U64) ||| 0 = 0 from rfl, maskToVector_zero]]
    rfl
  have hf : s.finish = if |s.phase| > 1e-12 then
      .ok { s with gates := s.gates ++ [.inl (.det g)] ++ [.inl (.det (.globalPhase s.phase ⟨0, 0, 0⟩))], conds := s.conds ++ [none] ++ [none] }
      else .ok { s with gates := s.gates ++ [.inl (.det g)], conds := s.conds ++ [none] } := by
    unfold OptState.finish
    rw [hl, hm, ok_bind]
    dsimp only
    split
    · rw [show (GateDesc.globalPhase s.phase [] []).build = .ok (.globalPhase s.phase ⟨0, 0, 0⟩) from rfl, ok_bind]
      unfold OptState.push
      dsimp only
      rw [e0]
      rfl
    · rfl
  constructor
  · intro h0
    rw [hf, if_neg (by rw [h0]; norm_num)]
  · by_cases hc : |s.phase| > 1e-12
    · rw [hf, if_pos hc]
      exact ⟨_, rfl, rfl, fun h => absurd hc (not_lt.2 h), fun _ => ⟨by simp, by simp⟩⟩
    · rw [hf, if_neg hc]
      exact ⟨_, rfl, rfl, fun _ => ⟨rfl, rfl⟩, fun h => absurd h hc⟩

/-- two gates whose block is too large stay as they are -/
theorem pair_kept (h1 : Mergeable g1) (h2 : Mergeable g2) (hv1 : Valid g1) (hv2 : Valid g2) (hr1 : InReg N g1) (hr2 : InReg N g2)
    (hs : ∃ q, UGate.uses g1 q ∧ UGate.uses g2 q) (hbig : mb < (maskToVector (blockMask g1 g2)).length)
    (hp : ¬ (g2.operands.c = g1.operands.c ∧ g2.operands.v = g1.operands.v ∧ isPauli g2 = true ∧ isPauli g1 = true)) :
    ∃ s s', [(none, .inl (.det g1)), (none, .inl (.det g2))].foldlM (stepPair mb) ⟨[], [], 0, [], List.replicate N none, []⟩ = .ok s ∧ s.finish = .ok s' ∧
      s'.gates = [.inl (.det g1), .inl (.det g2)] ∧ s'.conds = [none, none] ∧ s'.log = [] := by
  obtain ⟨s1, e1, hF⟩ := first_step h1 hr1 mb
  obtain ⟨w2, hw2⟩ := markAll_ok s1.waiting (Item.operandList (.inl (.det g1))) none fun q hq => by rw [hF.len]; exact hr1 q (mem_itemList.1 hq)
  obtain ⟨l2, -, t2⟩ := markAll_spec hw2
  obtain ⟨w3, hw3⟩ := markAll_ok w2 g2.operandQubitList (some 1) fun q hq => by rw [l2, hF.len]; exact hr2 q (mem_operandList.1 hq)
  obtain ⟨-, -, t3⟩ := markAll_spec hw3
  have e2 : s1.step mb none (.inl (.det g2)) = .ok ⟨[.inl (.det g1)], [none], 0, [g1, g2], w3, []⟩ := by
    rw [step_gate h2]
    unfold OptState.mergeable
    rw [hF.indices hr2 hs, ok_bind, if_neg (by simp), hF.should hv1 hv2 hr2 (mb := mb), ok_bind, decide_eq_false hp, decide_eq_false (by omega)]
    rw [if_neg (by simp)]
    have hpush : s1.pushAll [0] = .ok ⟨[.inl (.det g1)], [none], 0, [g1], w2, []⟩ := by
      unfold OptState.pushAll
      rw [List.foldlM_cons, show elemAt s1.pool 0 = .ok g1 by rw [hF.eq]; rfl, ok_bind]
      unfold OptState.push
      rw [hw2, ok_bind, hF.eq]
      rfl
    rw [hpush, ok_bind]
    unfold OptState.wait
    dsimp only
    rw [show ([g1] : List UGate).length = 1 from rfl, hw3]
    rfl
  have htab : ∀ q : Nat, w3[q]? = if q ∈ g2.operandQubitList then some (some 1) else if q < N then some none else none := by
    intro q
    rw [t3]
    split
    · rfl
    · rw [t2, hF.table]
      by_cases a : UGate.uses g1 q
      · rw [if_pos (mem_itemList.2 a), if_pos (hr1 q a)]
      · rw [if_neg fun x => a (mem_itemList.1 x), if_neg fun x => a (mem_operandList.1 x)]
  refine ⟨⟨[.inl (.det g1)], [none], 0, [g1, g2], w3, []⟩, _, ?_, (finish_single (g := g2) (i := 1) rfl ?_ ?_).1 rfl, rfl, rfl, rfl⟩
  · rw [List.foldlM_cons, show stepPair mb _ (none, .inl (.det g1)) = .ok s1 from e1, ok_bind, List.foldlM_cons,
      show stepPair mb s1 (none, .inl (.det g2)) = _ from e2, ok_bind]
    rfl
  · intro q j hq
    dsimp only at hq
    rw [htab] at hq
    split at hq
    · simpa using hq.symm
    · split at hq <;> simp at hq
  · obtain ⟨q, -, hq⟩ := hs
    exact ⟨q, by dsimp only; rw [htab, if_pos (mem_operandList.2 hq)]⟩

/-- two gates whose block is small enough become one -/
theorem pair_merged (h1 : Mergeable g1) (h2 : Mergeable g2) (hv1 : Valid g1) (hv2 : Valid g2) (hN : N < 64) (hr1 : InReg N g1) (hr2 : InReg N g2)
    (hs : ∃ q, UGate.uses g1 q ∧ UGate.uses g2 q) (hsmall : (maskToVector (blockMask g1 g2)).length ≤ mb ∨
      (g2.operands.c = g1.operands.c ∧ g2.operands.v = g1.operands.v ∧ isPauli g2 = true ∧ isPauli g1 = true)) {m : UGate} {φ : ℝ}
    (hm : mergeGate g1 g2 = .ok (m, φ)) (hk : ∀ q, UGate.uses g1 q → UGate.uses m q) (hk2 : ∀ q, UGate.uses g2 q → UGate.uses m q) :
    ∃ s s', [(none, .inl (.det g1)), (none, .inl (.det g2))].foldlM (stepPair mb) ⟨[], [], 0, [], List.replicate N none, []⟩ = .ok s ∧ s.finish = .ok s' ∧
      s'.log = [(g1, g2)] ∧ (|φ| ≤ 1e-12 → s'.gates = [.inl (.det m)] ∧ s'.conds = [none]) ∧
      (1e-12 < |φ| → s'.gates = [.inl (.det m), .inl (.det (.globalPhase φ ⟨0, 0, 0⟩))] ∧ s'.conds = [none, none]) := by
  obtain ⟨s1, e1, hF⟩ := first_step h1 hr1 mb
  have hrm := (merge_valid hN hm ⟨hv1, hr1⟩ ⟨hv2, hr2⟩).1.2
  obtain ⟨w3, hw3⟩ := markAll_ok s1.waiting m.operandQubitList (some 1) fun q hq => by rw [hF.len]; exact hrm q (mem_operandList.1 hq)
  obtain ⟨-, -, t3⟩ := markAll_spec hw3
  have e2 : s1.step mb none (.inl (.det g2)) = .ok ⟨[], [], φ, [g1, m], w3, [(g1, g2)]⟩ := by
    rw [step_gate h2]
    unfold OptState.mergeable
    rw [hF.indices hr2 hs, ok_bind, if_neg (by simp), hF.should hv1 hv2 hr2 (mb := mb), ok_bind, if_pos (by
      rw [Bool.or_eq_true, decide_eq_true_eq, decide_eq_true_eq]; exact hsmall.symm)]
    have hall : s1.mergeAll g2 [0] = .ok (⟨[], [], 0 + φ, [g1], s1.waiting, [] ++ [(g1, g2)]⟩, m) := by
      unfold OptState.mergeAll
      rw [List.foldlM_cons]
      dsimp only
      rw [show elemAt s1.pool 0 = .ok g1 by rw [hF.eq]; rfl, ok_bind, hm, ok_bind, hF.eq]
      rfl
    rw [hall, ok_bind]
    unfold OptState.wait
    dsimp only
    rw [show ([g1] : List UGate).length = 1 from rfl, hw3, zero_add]
    rfl
  have htab : ∀ q : Nat, w3[q]? = if q ∈ m.operandQubitList then some (some 1) else if q < N then some none else none := by
    intro q
    rw [t3]
    split
    · rfl
    · rename_i hnm
      rw [hF.table, if_neg fun h => hnm (mem_operandList.2 (hk q (mem_operandList.1 h)))]
  obtain ⟨s', e3, e4, e5, e6⟩ := (finish_single (s := ⟨[], [], φ, [g1, m], w3, [(g1, g2)]⟩) (g := m) (i := 1) rfl (by
    intro q j hq
    dsimp only at hq
    rw [htab] at hq
    split at hq
    · simpa using hq.symm
    · split at hq <;> simp at hq) (by
    obtain ⟨q, -, hq⟩ := hs
    exact ⟨q, by dsimp only; rw [htab, if_pos (mem_operandList.2 (hk2 q hq))]⟩)).2
  refine ⟨_, s', ?_, e3, e4, e5, e6⟩
  rw [List.foldlM_cons, show stepPair mb _ (none, .inl (.det g1)) = .ok s1 from e1, ok_bind, List.foldlM_cons,
    show stepPair mb s1 (none, .inl (.det g2)) = _ from e2, ok_bind]
  rfl

end Verif.Proofs
