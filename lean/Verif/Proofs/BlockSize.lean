import Verif.Proofs.OptimizeTotal
import Verif.Proofs.GateBounds

/-! # The size of the matrices `Circuit::optimize` makes -/

namespace Verif.Proofs
open Verif Verif.Spec Verif.Model
attribute [-simp] BitVec.getLsbD_eq_getElem

/-- a gate is a Pauli gate, one of the old gates or has at most `mb` target qubits -/
def Small (mb : Nat) (old : UGate → Prop) (g : UGate) : Prop := isPauli g = true ∨ old g ∨ g.targetQubitList.length ≤ mb

theorem mkOperands_t {ts cs vs : List Nat} {o : Operands} (h : mkOperands ts cs vs = .ok o) : vectorToMask ts = .ok o.t ∧ vectorToMask cs = .ok o.c := by
  unfold mkOperands at h
  obtain ⟨vs', -, h⟩ := bind_ok h
  obtain ⟨t, ht, h⟩ := bind_ok h
  obtain ⟨c, hc, h⟩ := bind_ok h
  obtain ⟨v, -, h⟩ := bind_ok h
  unfold gateBase at h
  split at h
  · cases h
  · cases h; exact ⟨ht, hc⟩

/-- the target qubits of a merged matrix: all qubits of the two gates without the common controls -/
theorem mergeDense_targets {g1 g2 g : UGate} {φ : ℝ} (h : mergeDense g1 g2 = .ok (g, φ)) : ∃ G, g = .dense G ∧
    ∀ q ∈ maskToVector G.o.t, (UGate.uses g1 q ∨ UGate.uses g2 q) ∧ (commonControls g1.operands g2.operands).getLsbD q = false := by
  unfold mergeDense at h
  dsimp only at h
  obtain ⟨m1, _, h⟩ := bind_ok h
  obtain ⟨e1, _, h⟩ := bind_ok h
  obtain ⟨m2, _, h⟩ := bind_ok h
  obtain ⟨e2, _, h⟩ := bind_ok h
  obtain ⟨m, _, h⟩ := bind_ok h
  obtain ⟨g', hg, h⟩ := bind_ok h
  cases h
  unfold GateDesc.build at hg
  dsimp only at hg
  obtain ⟨G, hG, hg⟩ := bind_ok hg
  cases hg
  refine ⟨G, rfl, ?_⟩
  have ht : ∃ cs vs, mkOperands (maskToVector (((g1.operands.t ||| g1.operands.c) ||| (g2.operands.t ||| g2.operands.c)) &&&
      ~~~(commonControls g1.operands g2.operands))) cs vs = .ok G.o := by
    unfold mkDense at hG
    obtain ⟨_, _, hG⟩ := bind_ok hG
    obtain ⟨dim, _, hG⟩ := bind_ok hG
    split at hG
    · cases hG
    · split at hG
      · obtain ⟨o, ho, hG⟩ := bind_ok hG
        cases hG
        exact ⟨_, _, ho⟩
      · obtain ⟨m', _, hG⟩ := bind_ok hG
        obtain ⟨o, ho, hG⟩ := bind_ok hG
        cases hG
        exact ⟨_, _, ho⟩
  obtain ⟨cs, vs, ho⟩ := ht
  have h1 := (mkOperands_t ho).1
  rw [vectorToMask_maskToVector] at h1
  have h1 := Except.ok.inj h1
  intro q hq
  rw [mem_maskToVector, ← h1, BitVec.getLsbD_and, BitVec.getLsbD_or, BitVec.getLsbD_not, Bool.and_eq_true, Bool.or_eq_true, Bool.and_eq_true] at hq
  exact ⟨hq.1, by simpa using hq.2.2⟩

theorem build_one_c {k : Gate1} {q : Nat} {g1 g : UGate} {vs : List Nat} (h : (GateDesc.one k q g1.controlQubitList vs).build = .ok g) :
    g.operands.c = g1.operands.c := by
  unfold GateDesc.build at h
  dsimp only at h
  obtain ⟨o, ho, h⟩ := bind_ok h
  cases h
  have := (mkOperands_t ho).2
  rw [show vectorToMask g1.controlQubitList = .ok g1.operands.c from vectorToMask_maskToVector _] at this
  exact (Except.ok.inj this).symm

theorem build_phase_c {a : ℝ} {g1 g : UGate} {vs : List Nat} (h : (GateDesc.globalPhase a g1.controlQubitList vs).build = .ok g) :
    g.operands.c = g1.operands.c := by
  unfold GateDesc.build at h
  dsimp only at h
  obtain ⟨o, ho, h⟩ := bind_ok h
  cases h
  have := (mkOperands_t ho).2
  rw [show vectorToMask g1.controlQubitList = .ok g1.operands.c from vectorToMask_maskToVector _] at this
  exact (Except.ok.inj this).symm

theorem build_pauli_c {p : PauliOp} {g1 g : UGate} {vs : List Nat} (h : (GateDesc.pauli p g1.controlQubitList vs).build = .ok g) :
    (∃ G, g = .pauli G) ∧ g.operands.c = g1.operands.c := by
  unfold GateDesc.build at h
  dsimp only at h
  obtain ⟨G, hG, h⟩ := bind_ok h
  cases h
  unfold mkPauli at hG
  obtain ⟨vs', -, hG⟩ := bind_ok hG
  obtain ⟨c, hcm, hG⟩ := bind_ok hG
  obtain ⟨v, -, hG⟩ := bind_ok hG
  obtain ⟨o, ho, hG⟩ := bind_ok hG
  cases hG
  unfold gateBase at ho
  split at ho
  · cases ho
  · cases ho
    rw [show vectorToMask g1.controlQubitList = .ok g1.operands.c from vectorToMask_maskToVector _] at hcm
    exact ⟨⟨_, rfl⟩, (Except.ok.inj hcm).symm⟩

/-- the special cases of `merge_gate` give the identity or a gate with the controls of the first gate -/
theorem stage_controls {g1 g2 g : UGate} {φ : ℝ} {s : UGate → UGate → Stage} (hs : s ∈ mergeStages) (h : s g1 g2 = .ok (some (g, φ))) :
    g = .ident ∨ g.operands.c = g1.operands.c := by
  have fixed : ∀ f p tb, stageFixed f p tb g1 g2 = .ok (some (g, φ)) → g = .ident ∨ g.operands.c = g1.operands.c := by
    intro f p tb h
    unfold stageFixed at h
    split at h
    swap; · cases h
    split at h
    swap; · cases h
    obtain ⟨t1, _, h⟩ := bind_ok h
    obtain ⟨t2, _, h⟩ := bind_ok h
    split at h
    swap; · cases h
    split at h
    · cases h; exact .inl rfl
    · obtain ⟨g', hg, h⟩ := bind_ok h
      cases h
      exact .inr (build_one_c hg)
    · cases h
  have angle : ∀ f mk, stageAngle f mk g1 g2 = .ok (some (g, φ)) → g = .ident ∨ g.operands.c = g1.operands.c := by
    intro f mk h
    unfold stageAngle at h
    split at h
    swap; · cases h
    split at h
    swap; · cases h
    obtain ⟨t1, _, h⟩ := bind_ok h
    obtain ⟨t2, _, h⟩ := bind_ok h
    split at h
    swap; · cases h
    dsimp only at h
    split at h
    swap; · cases h
    obtain ⟨g', hg, h⟩ := bind_ok h
    cases h
    exact .inr (build_one_c hg)
  unfold mergeStages at hs
  simp only [List.mem_cons, List.not_mem_nil, or_false] at hs
  rcases hs with rfl | rfl | rfl | rfl | rfl | rfl | rfl | rfl | rfl | rfl
  · unfold stagePhase at h
    split at h
    swap; · cases h
    obtain ⟨g', hg, h⟩ := bind_ok h
    cases h
    exact .inr (build_phase_c hg)
  · unfold stagePauliPair at h
    split at h
    swap; · cases h
    obtain ⟨t1, _, h⟩ := bind_ok h
    obtain ⟨t2, _, h⟩ := bind_ok h
    split at h
    swap; · cases h
    split at h
    · cases h; exact .inl rfl
    split at h
    swap; · cases h
    split at h
    swap; · cases h
    obtain ⟨g', hg, h⟩ := bind_ok h
    cases h
    exact .inr (build_one_c hg)
  · unfold stagePauliProduct at h
    obtain ⟨t1, _, h⟩ := bind_ok h
    obtain ⟨t2, _, h⟩ := bind_ok h
    split at h
    swap; · cases h
    obtain ⟨g', hg, h⟩ := bind_ok h
    cases h
    exact .inr (build_pauli_c hg).2
  · exact fixed _ _ _ h
  · exact angle _ _ h
  · exact fixed _ _ _ h
  · exact angle _ _ h
  · exact fixed _ _ _ h
  · exact angle _ _ h
  · unfold stageSwap at h
    split at h
    swap; · cases h
    split at h
    · cases h; exact .inl rfl
    · cases h

/-- the target qubits of the merged gate, if it is neither of the two, are qubits of the two without the common controls -/
theorem merge_size {g1 g2 g : UGate} {φ : ℝ} (h : mergeGate g1 g2 = .ok (g, φ)) (hv : Valid g) (hu : ∀ q, UGate.uses g q → UGate.uses g1 q ∨ UGate.uses g2 q) :
    g = g1 ∨ g = g2 ∨
    ∀ q ∈ g.targetQubitList, (UGate.uses g1 q ∨ UGate.uses g2 q) ∧ (commonControls g1.operands g2.operands).getLsbD q = false := by
  rcases mergeGate_cases h with ⟨-, rfl⟩ | ⟨-, rfl⟩ | ⟨_, _, -, -, rfl⟩ | ⟨_, _, -, -, rfl⟩ | h | ⟨-, -, s, hs, h⟩
  · exact .inr (.inl rfl)
  · exact .inl rfl
  · exact .inr (.inl rfl)
  · exact .inl rfl
  · obtain ⟨G, rfl, hG⟩ := mergeDense_targets h
    exact .inr (.inr hG)
  · refine .inr (.inr fun q hq => ?_)
    have hq : g.operands.t.getLsbD q = true := mem_maskToVector.1 hq
    refine ⟨hu q (by unfold UGate.uses; rw [BitVec.getLsbD_or, hq, Bool.true_or]), ?_⟩
    rcases stage_controls hs h with rfl | hc
    · have hq : (0 : U64).getLsbD q = true := hq
      simp at hq
    · have hd := congrArg (fun m : U64 => m.getLsbD q) (valid_operandsOK hv).disj
      simp only [BitVec.getLsbD_and, hq, hc, Bool.true_and] at hd
      unfold commonControls
      rw [BitVec.getLsbD_and, BitVec.getLsbD_and, hd]
      simp

/-! ## Pauli gates -/

theorem isPauli_cases {g : UGate} (h : isPauli g = true) : (∃ k id o, g = .one k o ∧ pauliId g = some id) ∨ ∃ p, g = .pauli p := by
  cases g with
  | one k o => cases k <;> first | (cases h; done) | exact .inl ⟨_, _, o, rfl, rfl⟩
  | pauli p => exact .inr ⟨p, rfl⟩
  | _ => cases h

theorem asPauli_some {g : UGate} (h : isPauli g = true) {r : Option PauliOp} (hr : asPauli g = .ok r) : ∃ p, r = some p := by
  rcases isPauli_cases h with ⟨k, id, o, rfl, hid⟩ | ⟨p, rfl⟩
  · unfold asPauli at hr
    dsimp only at hr
    rw [hid] at hr
    dsimp only at hr
    obtain ⟨t, _, hr⟩ := bind_ok hr
    obtain ⟨p, _, hr⟩ := bind_ok hr
    cases hr
    exact ⟨p, rfl⟩
  · cases hr
    exact ⟨_, rfl⟩

/-- merging two Pauli gates with the same controls gives the identity or a Pauli gate with these controls -/
theorem merge_pauli {g1 g2 g : UGate} {φ : ℝ} (h1 : isPauli g1 = true) (h2 : isPauli g2 = true) (hc : g1.operands.c = g2.operands.c)
    (hv : g1.operands.v = g2.operands.v) (h : mergeGate g1 g2 = .ok (g, φ)) :
    g = .ident ∨ isPauli g = true ∧ g.operands.c = g1.operands.c := by
  have np : ∀ {x : UGate}, isPauli x = true → ∀ a o, x ≠ .globalPhase a o := by
    intro x hx
    rcases isPauli_cases hx with ⟨k, id, o, rfl, -⟩ | ⟨p, rfl⟩ <;> simp
  have a4 := np h1
  have hrest : mergeGate g1 g2 = (if ¬ (g1.operands.c = g2.operands.c ∧ g1.operands.v = g2.operands.v) then mergeDense g1 g2
      else do
        match ← runStages g1 g2 mergeStages with
        | some r => pure r
        | none => mergeDense g1 g2) := by
    rcases isPauli_cases h1 with ⟨k1, _, o1, rfl, -⟩ | ⟨p1, rfl⟩ <;> rcases isPauli_cases h2 with ⟨k2, _, o2, rfl, -⟩ | ⟨p2, rfl⟩ <;> rfl
  rw [hrest, if_neg (by simp [hc, hv])] at h
  obtain ⟨r, hr, h⟩ := bind_ok h
  unfold mergeStages runStages at hr
  have e1 : stagePhase g1 g2 = .ok none := by
    unfold stagePhase
    split
    · exact absurd rfl (a4 _ _)
    · rfl
  rw [e1, ok_bind] at hr
  dsimp only at hr
  unfold runStages at hr
  obtain ⟨r2, hr2, hr⟩ := bind_ok hr
  have hlist : vectorToMask g1.controlQubitList = .ok g1.operands.c := vectorToMask_maskToVector _
  cases r2 with
  | some r2 =>
    cases hr
    cases h
    unfold stagePauliPair at hr2
    split at hr2
    swap; · cases hr2
    obtain ⟨t1, _, hr2⟩ := bind_ok hr2
    obtain ⟨t2, _, hr2⟩ := bind_ok hr2
    split at hr2
    swap; · cases hr2
    split at hr2
    · cases hr2; exact .inl rfl
    split at hr2
    swap; · cases hr2
    rename_i k ph hk
    split at hr2
    swap; · cases hr2
    obtain ⟨g', hg, hr2⟩ := bind_ok hr2
    cases hr2
    unfold GateDesc.build at hg
    dsimp only at hg
    obtain ⟨o, ho, hg⟩ := bind_ok hg
    cases hg
    have := (mkOperands_t ho).2
    rw [hlist] at this
    refine .inr ⟨?_, (Except.ok.inj this).symm⟩
    unfold pauliPair at hk
    split at hk <;> cases hk <;> rfl
  | none =>
    dsimp only at hr
    unfold runStages at hr
    obtain ⟨r3, hr3, hr⟩ := bind_ok hr
    unfold stagePauliProduct at hr3
    obtain ⟨p1, hp1, hr3⟩ := bind_ok hr3
    obtain ⟨p2, hp2, hr3⟩ := bind_ok hr3
    obtain ⟨p1, rfl⟩ := asPauli_some h1 hp1
    obtain ⟨p2, rfl⟩ := asPauli_some h2 hp2
    dsimp only at hr3
    obtain ⟨g', hg, hr3⟩ := bind_ok hr3
    cases hr3
    cases hr
    cases h
    obtain ⟨⟨G, rfl⟩, hcc⟩ := build_pauli_c hg
    exact .inr ⟨rfl, hcc⟩

/-- merging with the identity gate -/
theorem merge_with_ident {x : UGate} (hx : NotPerm x) : mergeGate .ident x = .ok (x, 0) ∧ mergeGate x .ident = .ok (x, 0) := by
  cases x with
  | perm p => exact absurd rfl (hx p)
  | _ => exact ⟨rfl, rfl⟩

/-! ## one merge -/

variable {N mb : Nat} {old : UGate → Prop}

theorem merge_valid {g1 g2 g : UGate} {φ : ℝ} (hN : N < 64) (h : mergeGate g1 g2 = .ok (g, φ)) (h1 : Valid g1 ∧ InReg N g1) (h2 : Valid g2 ∧ InReg N g2) :
    (Valid g ∧ InReg N g) ∧ ∀ q, UGate.uses g q → UGate.uses g1 q ∨ UGate.uses g2 q := by
  obtain ⟨hp1, hp2⟩ := notPerm_of_merge h
  obtain ⟨g', φ', δ, hm, hM, -, -⟩ := mergeGate_ok h1.1 h2.1 hp1 hp2 ⟨N, hN, fun q hq => hq.elim (h1.2 q) (h2.2 q)⟩
  rw [h] at hm
  cases hm
  exact ⟨⟨hM.valid, fun q hq => (hM.qubits q hq).elim (h1.2 q) (h2.2 q)⟩, hM.qubits⟩

theorem small_pauli {g : UGate} (h : g = .ident ∨ isPauli g = true) : Small mb old g := by
  rcases h with rfl | h
  · refine .inr (.inr ?_)
    show (maskToVector 0).length ≤ mb
    rw [maskToVector_zero]
    exact Nat.zero_le _
  · exact .inl h

/-- a list without repetition inside of another one is not longer -/
theorem length_le_of_mem {l V : List Nat} (hn : l.Nodup) (h : ∀ q ∈ l, q ∈ V) : l.length ≤ V.length :=
  (List.subperm_of_subset hn h).length_le

theorem merge_small {g1 g2 g : UGate} {φ : ℝ} {V : List Nat} (h : mergeGate g1 g2 = .ok (g, φ)) (hv : Valid g)
    (hu : ∀ q, UGate.uses g q → UGate.uses g1 q ∨ UGate.uses g2 q) (h1 : Small mb old g1) (h2 : Small mb old g2)
    (hV1 : ∀ q, UGate.uses g1 q → q ∈ V) (hV2 : ∀ q, UGate.uses g2 q → q ∈ V)
    (hl : V.length ≤ mb ∨ V.length - popcount (commonControls g1.operands g2.operands) ≤ mb) : Small mb old g := by
  rcases merge_size h hv hu with rfl | rfl | hG
  · exact h1
  · exact h2
  · refine .inr (.inr ?_)
    have key : (g.targetQubitList ++ maskToVector (commonControls g1.operands g2.operands)).length ≤ V.length := by
      refine length_le_of_mem (List.nodup_append.2 ⟨maskToVector_nodup _, maskToVector_nodup _, ?_⟩) ?_
      · rintro a ha b hb rfl
        rw [mem_maskToVector, (hG a ha).2] at hb
        cases hb
      · intro q hq
        rcases List.mem_append.1 hq with hq | hq
        · exact (hG q hq).1.elim (hV1 q) (hV2 q)
        · rw [mem_maskToVector] at hq
          refine hV1 q ?_
          unfold commonControls at hq
          rw [BitVec.getLsbD_and, BitVec.getLsbD_and, Bool.and_eq_true, Bool.and_eq_true] at hq
          unfold UGate.uses
          rw [BitVec.getLsbD_or, hq.1.1, Bool.or_true]
    rw [List.length_append, length_maskToVector (commonControls _ _)] at key
    omega

/-! ## merging with the waiting gates -/

theorem mergeAll_keeps {K : UGate → Prop} (hK : ∀ p g m φ, K p → K g → mergeGate p g = .ok (m, φ) → K m) {is : List Nat} :
    ∀ {a r : OptState × UGate}, is.foldlM mergeStep a = .ok r → (∀ i ∈ is, ∀ p, a.1.pool[i]? = some p → K p) → K a.2 →
      K r.2 ∧ r.1.pool = a.1.pool ∧ r.1.waiting = a.1.waiting ∧ r.1.gates = a.1.gates ∧ r.1.conds = a.1.conds := by
  induction is with
  | nil => intro a r h _ ha; cases h; exact ⟨ha, rfl, rfl, rfl, rfl⟩
  | cons i is ih =>
    intro a r h hp ha
    rw [List.foldlM_cons] at h
    obtain ⟨b, hb, h⟩ := bind_ok h
    obtain ⟨p, m, φ, h1, h2, rfl⟩ := mergeStep_ok hb
    exact ih (a := ({ a.1 with phase := a.1.phase + φ, log := a.1.log ++ [(p, a.2)] }, m)) h (fun j hj => hp j (List.mem_cons_of_mem _ hj))
      (hK _ _ _ _ (hp i List.mem_cons_self p h1) ha h2)

theorem newly_spec {s : OptState} {qs l : List Nat} (h : qs.filterMapM (fun q => do
      let w ← elemAt s.waiting q
      pure (if w = none then some q else none)) = (.ok l : Res (List Nat))) :
    ∀ q ∈ qs, q ∈ l ∨ ∃ i, s.waiting[q]? = some (some i) := by
  induction qs generalizing l with
  | nil => intro q hq; cases hq
  | cons a qs ih =>
    rw [List.filterMapM_cons] at h
    obtain ⟨o, ho, h⟩ := bind_ok h
    obtain ⟨w, hw, ho⟩ := bind_ok ho
    rw [elemAt_ok] at hw
    cases w with
    | none =>
      cases ho
      obtain ⟨l', hl', h⟩ := bind_ok h
      cases h
      intro q hq
      rcases List.mem_cons.1 hq with rfl | hq
      · exact .inl List.mem_cons_self
      · exact (ih hl' q hq).imp_left (List.mem_cons_of_mem _)
    | some i =>
      cases ho
      intro q hq
      rcases List.mem_cons.1 hq with rfl | hq
      · exact .inr ⟨i, hw⟩
      · exact ih h q hq

theorem prev_spec {pool : List UGate} {is : List Nat} {prev : List UGate} (h : is.mapM (elemAt pool) = .ok prev) :
    (∀ i ∈ is, ∀ g, pool[i]? = some g → g ∈ prev) ∧ (∀ i p, is = [i] → prev = [p] → pool[i]? = some p) ∧ prev.length = is.length := by
  induction is generalizing prev with
  | nil => cases h; exact ⟨by simp, by simp, rfl⟩
  | cons i is ih =>
    rw [List.mapM_cons] at h
    obtain ⟨g, hg, h⟩ := bind_ok h
    obtain ⟨gs, hgs, h⟩ := bind_ok h
    cases h
    rw [elemAt_ok] at hg
    obtain ⟨a, -, c⟩ := ih hgs
    refine ⟨?_, ?_, by simp [c]⟩
    · intro j hj x hx
      rcases List.mem_cons.1 hj with rfl | hj
      · rw [hg] at hx; cases hx; exact List.mem_cons_self
      · exact List.mem_cons_of_mem _ (a j hj x hx)
    · intro j p h1 h2
      cases h1
      cases h2
      exact hg

theorem foldl_lengths (prev : List UGate) (k : Nat) :
    prev.foldl (fun acc p => acc + p.operandQubitList.length) k = k + (prev.flatMap (·.operandQubitList)).length := by
  induction prev generalizing k with
  | nil => rfl
  | cons p prev ih => rw [List.foldl_cons, ih, List.flatMap_cons, List.length_append]; omega

/-! ## the invariant of the loop -/

/-- the gates of the pool and the entries already written are old ones or small -/
structure Blk (N mb : Nat) (src : List (Option Condition × Item)) (s : OptState) : Prop where
  table : ∀ q i : Nat, s.waiting[q]? = some (some i) → ∃ g, s.pool[i]? = some g ∧ UGate.uses g q
  pool : ∀ g ∈ s.pool, (Valid g ∧ InReg N g) ∧ Small mb (fun g => (none, .inl (.det g)) ∈ src) g
  len : s.conds.length = s.gates.length
  out : ∀ p ∈ s.conds.zip s.gates, p ∈ src ∨ ∃ g, p = (none, .inl (.det g)) ∧ Small mb (fun g => (none, .inl (.det g)) ∈ src) g

variable {src : List (Option Condition × Item)}

theorem Blk.push {s s' : OptState} (h : Blk N mb src s) {it : Item} {c : Option Condition} (hs : s.push it c = .ok s')
    (hp : (c, it) ∈ src ∨ ∃ g, (c, it) = (none, .inl (.det g)) ∧ Small mb (fun g => (none, .inl (.det g)) ∈ src) g) : Blk N mb src s' ∧ s'.pool = s.pool := by
  unfold OptState.push at hs
  obtain ⟨w, hw, hs⟩ := bind_ok hs
  cases hs
  obtain ⟨-, -, hm⟩ := markAll_spec hw
  refine ⟨⟨?_, h.pool, by simp [h.len], ?_⟩, rfl⟩
  · intro q i hqi
    dsimp only at hqi
    rw [hm] at hqi
    split at hqi
    · cases hqi
    · exact h.table q i hqi
  · intro p hm
    dsimp only at hm
    rw [zip_snoc h.len] at hm
    rcases List.mem_append.1 hm with hm | hm
    · exact h.out p hm
    · rw [List.mem_singleton.1 hm]; exact hp

theorem Blk.wait {s s' : OptState} (h : Blk N mb src s) {g : UGate} (hs : s.wait g = .ok s') (hg : Valid g ∧ InReg N g)
    (hS : Small mb (fun g => (none, .inl (.det g)) ∈ src) g) : Blk N mb src s' := by
  unfold OptState.wait at hs
  obtain ⟨w, hw, hs⟩ := bind_ok hs
  cases hs
  obtain ⟨-, -, hm⟩ := markAll_spec hw
  refine ⟨?_, ?_, h.len, h.out⟩
  · intro q i hqi
    dsimp only at hqi ⊢
    rw [hm] at hqi
    split at hqi
    · rename_i hq
      cases hqi
      exact ⟨g, by simp, mem_operandList.1 hq⟩
    · obtain ⟨x, hx, hu⟩ := h.table q i hqi
      exact ⟨x, by rw [List.getElem?_append_left (List.getElem?_eq_some_iff.1 hx).1]; exact hx, hu⟩
  · intro x hx
    rcases List.mem_append.1 hx with hx | hx
    · exact h.pool x hx
    · rw [List.mem_singleton.1 hx]; exact ⟨hg, hS⟩

theorem Blk.pushAll {is : List Nat} {s s' : OptState} (h : Blk N mb src s) (hs : s.pushAll is = .ok s') : Blk N mb src s' := by
  induction is generalizing s with
  | nil => cases hs; exact h
  | cons i is ih =>
    unfold OptState.pushAll at hs
    rw [List.foldlM_cons] at hs
    obtain ⟨s1, h1, hs⟩ := bind_ok hs
    obtain ⟨g, hg, h1⟩ := bind_ok h1
    rw [elemAt_ok] at hg
    exact ih (h.push h1 (.inr ⟨g, rfl, (h.pool g (List.mem_of_getElem? hg)).2⟩)).1 hs

theorem Blk.pushItem {s s' : OptState} (h : Blk N mb src s) {it : Item} {c : Option Condition} (hs : s.pushItem it c = .ok s') (hp : (c, it) ∈ src) :
    Blk N mb src s' := by
  unfold OptState.pushItem at hs
  obtain ⟨is, -, hs⟩ := bind_ok hs
  obtain ⟨s1, h1, hs⟩ := bind_ok hs
  exact ((h.pushAll h1).push hs (.inl hp)).1

theorem Blk.mergeable (hN : N < 64) {s s' : OptState} (h : Blk N mb src s) {g : UGate} (hg : Valid g ∧ InReg N g)
    (hS : Small mb (fun g => (none, .inl (.det g)) ∈ src) g) (hs : s.mergeable mb g = .ok s') : Blk N mb src s' := by
  unfold OptState.mergeable at hs
  obtain ⟨is, his, hs⟩ := bind_ok hs
  split at hs
  · exact h.wait hs hg hS
  obtain ⟨m, hm, hs⟩ := bind_ok hs
  split at hs
  swap
  · obtain ⟨s1, h1, hs⟩ := bind_ok hs
    exact (h.pushAll h1).wait hs hg hS
  rename_i hmt
  subst hmt
  obtain ⟨r, hr, hs⟩ := bind_ok hs
  have hr : is.foldlM mergeStep (s, g) = .ok r := hr
  -- it suffices to bound the merged gate
  suffices hfin : (Valid r.2 ∧ InReg N r.2) ∧ Small mb (fun g => (none, .inl (.det g)) ∈ src) r.2 by
    obtain ⟨-, e1, e2, e3, e4⟩ := mergeAll_keeps (K := fun _ => True) (fun _ _ _ _ _ _ _ => trivial) hr (fun _ _ _ _ => trivial) trivial
    have hr1 : Blk N mb src r.1 := ⟨by rw [e1, e2]; exact h.table, by rw [e1]; exact h.pool, by rw [e3, e4]; exact h.len, by rw [e3, e4]; exact h.out⟩
    exact hr1.wait hs hfin.1 hfin.2
  have hval := (mergeAll_keeps (K := fun g => Valid g ∧ InReg N g) (fun p g m φ hp hg hm => (merge_valid hN hm hp hg).1) hr
    (fun i _ p hp => (h.pool p (List.mem_of_getElem? hp)).1) hg).1
  refine ⟨hval, ?_⟩
  unfold OptState.shouldMerge at hm
  obtain ⟨newly, hnew, hm⟩ := bind_ok hm
  obtain ⟨prev, hprev, hm⟩ := bind_ok hm
  obtain ⟨pv1, pv2, pv3⟩ := prev_spec hprev
  -- the qubits of the block
  set V := newly ++ prev.flatMap (·.operandQubitList) with hV
  have hVp : ∀ i ∈ is, ∀ p, s.pool[i]? = some p → ∀ q, UGate.uses p q → q ∈ V := fun i hi p hp q hq =>
    List.mem_append_right _ (List.mem_flatMap.2 ⟨p, pv1 i hi p hp, mem_operandList.2 hq⟩)
  have hVg : ∀ q, UGate.uses g q → q ∈ V := by
    intro q hq
    have hq' := mem_itemList.2 hq
    rcases newly_spec hnew q hq' with hl | ⟨i, hi⟩
    · exact List.mem_append_left _ hl
    · obtain ⟨p, hp, hu⟩ := h.table q i hi
      exact hVp i (((waitingIndices_spec his).2 i).2 ⟨q, hq', hi⟩) p hp q hu
  have hlen : prev.foldl (fun acc p => acc + p.operandQubitList.length) newly.length = V.length := by
    rw [foldl_lengths, hV, List.length_append]
  -- a block that is small enough as a whole
  have whole : V.length ≤ mb → Small mb (fun g => (none, .inl (.det g)) ∈ src) r.2 := by
    intro hle
    exact (mergeAll_keeps (K := fun g => (Valid g ∧ InReg N g) ∧ Small mb (fun g => (none, .inl (.det g)) ∈ src) g ∧ ∀ q, UGate.uses g q → q ∈ V)
      (fun p g m φ hp hg hm => by
        obtain ⟨hv, hu⟩ := merge_valid hN hm hp.1 hg.1
        exact ⟨hv, merge_small hm hv.1 hu hp.2.1 hg.2.1 hp.2.2 hg.2.2 (.inl hle), fun q hq => (hu q hq).elim (hp.2.2 q) (hg.2.2 q)⟩) hr
      (fun i hi p hp => ⟨(h.pool p (List.mem_of_getElem? hp)).1, (h.pool p (List.mem_of_getElem? hp)).2, hVp i hi p hp⟩) ⟨hg, hS, hVg⟩).1.2.1
  -- Pauli gates without controls
  have pure' : (isPurePauli g && prev.all isPurePauli) = true → Small mb (fun g => (none, .inl (.det g)) ∈ src) r.2 := by
    intro ha
    rw [Bool.and_eq_true, List.all_eq_true] at ha
    have pp : ∀ x, isPurePauli x = true → x.operands.c = 0 ∧ isPauli x = true := fun x hx => by
      unfold isPurePauli at hx
      rw [Bool.and_eq_true, decide_eq_true_eq] at hx
      exact hx
    have v0 : ∀ x, Valid x → isPauli x = true → x.operands.c = 0 → x.operands.v = 0 := by
      intro x hx hp hc
      have ho : OperandsOK x.operands := by
        rcases isPauli_cases hp with ⟨k, id, o, rfl, -⟩ | ⟨p, rfl⟩
        · exact hx.1
        · exact hx.1
      apply U64.ext
      intro i _
      cases hv : x.operands.v.getLsbD i with
      | false => simp
      | true => have := ho.sub i hv; rw [hc] at this; simp at this
    have hk := (mergeAll_keeps (K := fun g => (Valid g ∧ InReg N g) ∧ (g = .ident ∨ isPauli g = true ∧ g.operands.c = 0))
      (fun p g m φ hp hg hm => by
        refine ⟨(merge_valid hN hm hp.1 hg.1).1, ?_⟩
        rcases hp.2 with hi | ⟨p1, p2⟩
        · subst hi
          have hnp := (notPerm_of_merge hm).2
          rw [(merge_with_ident hnp).1] at hm
          cases hm
          exact hg.2
        · rcases hg.2 with hi | ⟨g1, g2⟩
          · subst hi
            have hnp := (notPerm_of_merge hm).1
            rw [(merge_with_ident hnp).2] at hm
            cases hm
            exact .inr ⟨p1, p2⟩
          · rcases merge_pauli p1 g1 (p2.trans g2.symm) ((v0 _ hp.1.1 p1 p2).trans (v0 _ hg.1.1 g1 g2).symm) hm with h | ⟨a, b⟩
            · exact .inl h
            · exact .inr ⟨a, b.trans p2⟩) hr
      (fun i hi p hp => by
        obtain ⟨a, b⟩ := pp p (ha.2 p (pv1 i hi p hp))
        exact ⟨(h.pool p (List.mem_of_getElem? hp)).1, .inr ⟨b, a⟩⟩)
      (by
        obtain ⟨a, b⟩ := pp g ha.1
        exact ⟨hg, .inr ⟨b, a⟩⟩)).1.2
    exact small_pauli (hk.imp_right (·.1))
  split at hm
  · rename_i p
    obtain ⟨i, rfl⟩ : ∃ i, is = [i] := List.length_eq_one_iff.1 (by rw [← pv3]; rfl)
    have hpi := pv2 i p rfl rfl
    rw [List.foldlM_cons] at hr
    obtain ⟨b, hb, hr⟩ := bind_ok hr
    cases hr
    obtain ⟨p', m, φ, e1, e2, rfl⟩ := mergeStep_ok hb
    have : p' = p := by
      have e1 : s.pool[i]? = some p' := e1
      rw [hpi] at e1
      exact (Option.some.inj e1).symm
    subst this
    dsimp only at e2 hm ⊢
    rw [hlen] at hm
    have hm := Except.ok.inj hm
    rw [Bool.or_eq_true, Bool.or_eq_true] at hm
    rcases hm with (hm | hm) | hm
    · simp only [Bool.and_eq_true, decide_eq_true_eq] at hm
      obtain ⟨⟨⟨c1, c2⟩, c3⟩, c4⟩ := hm
      exact small_pauli ((merge_pauli c4 c3 c1.symm c2.symm e2).imp_right (·.1))
    · exact pure' hm
    · rw [decide_eq_true_eq] at hm
      have hmv := merge_valid hN e2 (h.pool p' (List.mem_of_getElem? hpi)).1 hg
      refine merge_small e2 hmv.1.1 hmv.2 (h.pool p' (List.mem_of_getElem? hpi)).2 hS (hVp i (by simp) p' hpi) hVg (.inr ?_)
      have hcc : commonControls p'.operands g.operands = commonControls g.operands p'.operands := by
        unfold commonControls
        rw [BitVec.and_comm p'.operands.c, BitVec.xor_comm p'.operands.v]
      rw [hcc]
      unfold sub64 at hm
      split at hm
      · exact hm
      · omega
  · have hm := Except.ok.inj hm
    rw [hlen, Bool.or_eq_true, decide_eq_true_eq] at hm
    exact hm.elim pure' whole

theorem Blk.step (hN : N < 64) {s s' : OptState} (h : Blk N mb src s) {c : Option Condition} {it : Item} (hp : (c, it) ∈ src)
    (hg : ∀ g, c = none → it = .inl (.det g) → Valid g ∧ InReg N g) (hs : s.step mb c it = .ok s') : Blk N mb src s' := by
  unfold OptState.step at hs
  split at hs
  · cases hs; exact h
  · split at hs
    · cases hs; exact ⟨h.table, h.pool, h.len, h.out⟩
    · exact h.mergeable hN (hg _ rfl rfl) (.inr (.inl hp)) hs
  · exact h.mergeable hN (hg _ rfl rfl) (.inr (.inl hp)) hs
  · exact h.pushItem hs hp

theorem Blk.finish {s s' : OptState} (h : Blk N mb src s) (hs : s.finish = .ok s') : s'.conds.length = s'.gates.length ∧
    ∀ p ∈ s'.conds.zip s'.gates, p ∈ src ∨ ∃ g, p = (none, .inl (.det g)) ∧ Small mb (fun g => (none, .inl (.det g)) ∈ src) g := by
  unfold OptState.finish at hs
  obtain ⟨gs, hgs, hs⟩ := bind_ok hs
  have hmem : ∀ g ∈ gs, g ∈ s.pool := by
    intro g hg
    obtain ⟨i, hi⟩ := List.mem_iff_getElem?.1 hg
    obtain ⟨e1, e2⟩ := mapM_get _ hgs
    have hlt := (List.getElem?_eq_some_iff.1 hi).1
    obtain ⟨b, hb, hb'⟩ := e2 i _ (List.getElem?_eq_getElem (by omega))
    rw [hi] at hb
    cases hb
    exact List.mem_of_getElem? (elemAt_ok.1 hb')
  have h1 : Blk N mb src { s with gates := s.gates ++ gs.map (fun g => .inl (.det g)), conds := s.conds ++ gs.map (fun _ => none) } := by
    refine ⟨h.table, h.pool, by simp [h.len], ?_⟩
    intro p hp
    dsimp only at hp
    rw [List.zip_append h.len] at hp
    rcases List.mem_append.1 hp with hp | hp
    · exact h.out p hp
    · rw [List.zip_map', List.mem_map] at hp
      obtain ⟨g, hg, rfl⟩ := hp
      exact .inr ⟨g, rfl, (h.pool g (hmem g hg)).2⟩
  dsimp only at hs
  split at hs
  · obtain ⟨g, hg, hs⟩ := bind_ok hs
    have h2 := (h1.push hs (.inr ⟨g, rfl, .inr (.inr (by
      rw [show (GateDesc.globalPhase s.phase [] []).build = .ok (.globalPhase s.phase ⟨0, 0, 0⟩) from rfl] at hg
      cases hg
      show (maskToVector 0).length ≤ mb
      rw [maskToVector_zero]
      exact Nat.zero_le _))⟩)).1
    exact ⟨h2.len, h2.out⟩
  · cases hs
    exact ⟨h1.len, h1.out⟩

theorem Blk.loop (hN : N < 64) {l : List (Option Condition × Item)} : ∀ {s s' : OptState}, Blk N mb src s → (∀ p ∈ l, p ∈ src) →
    (∀ g, (none, .inl (.det g)) ∈ l → Valid g ∧ InReg N g) → l.foldlM (stepPair mb) s = .ok s' → Blk N mb src s' := by
  induction l with
  | nil => intro s s' h _ _ hs; cases hs; exact h
  | cons p l ih =>
    intro s s' h hsub hv hs
    rw [List.foldlM_cons] at hs
    obtain ⟨s1, h1, hs⟩ := bind_ok hs
    refine ih (h.step hN (hsub p List.mem_cons_self) (fun g hc hi => hv g ?_) h1) (fun x hx => hsub x (List.mem_cons_of_mem _ hx))
      (fun g hg => hv g (List.mem_cons_of_mem _ hg)) hs
    obtain ⟨c, it⟩ := p
    dsimp only at hc hi
    subst hc hi
    exact List.mem_cons_self

end Verif.Proofs
