import Verif.Proofs.OperatorBatched
import Verif.Props.Operator

/-!
# Properties of batched operators (C30-C32, C55)

A batched operator constructed from the lists of terms `l` is `OpB.ofLists l`.
-/

namespace Verif.Props
open Verif Verif.Spec Verif.Model Verif.Proofs

/-! ## C30 -/

/-- **C30** (slots).  `get_operator_at(b)` and `view_operator_at(b)` return slot `b` of the lists the batched operator was made
of, and throw for every other index; `batch_size`, `copy` and `get_operators` agree. -/
theorem C30_slots (l : List (List PauliOp)) :
    (OpB.ofLists l).batchSize = l.length ∧
    (∀ (b : Nat) (h : b < l.length), ∃ r v, (OpB.ofLists l).getOperatorAt b = .ok r ∧ r.terms = l[b] ∧
      (OpB.ofLists l).viewOperatorAt b = .ok v ∧ v.terms = l[b]) ∧
    (∀ b, l.length ≤ b → (∃ e, (OpB.ofLists l).getOperatorAt b = .error (.throw e)) ∧
      ∃ e, (OpB.ofLists l).viewOperatorAt b = .error (.throw e)) ∧
    (∃ r, (OpB.ofLists l).getOperators = .ok r ∧ r.map Op.terms = l) ∧ (OpB.ofLists l).copy = OpB.ofLists l ∧
    ∀ ops : List Op, ops.map Op.terms = l → OpB.ofOps ops = OpB.ofLists l := by
  have hs := slots_ofLists l
  have at_ : ∀ (b : Nat) (h : b < l.length), (OpB.ofLists l).getOperatorAt b = .ok ⟨l[b], true, false⟩ := by
    intro b h
    have hb : b < (OpB.ofLists l).batchSize := by rw [hs.size]; exact h
    unfold OpB.getOperatorAt
    rw [dif_pos hb, hs.subview ⟨b, hb⟩]
    rfl
  refine ⟨hs.size, fun b h => ⟨_, ⟨l[b], true, true⟩, at_ b h, rfl, ?_, rfl⟩, fun b h => ⟨?_, ?_⟩, ?_, rfl, ?_⟩
  · have hb : b < (OpB.ofLists l).batchSize := by rw [hs.size]; exact h
    unfold OpB.viewOperatorAt
    rw [dif_pos hb, hs.subview ⟨b, hb⟩]
    rfl
  · unfold OpB.getOperatorAt
    rw [dif_neg (by rw [hs.size]; omega)]; exact ⟨_, rfl⟩
  · unfold OpB.viewOperatorAt
    rw [dif_neg (by rw [hs.size]; omega)]; exact ⟨_, rfl⟩
  · refine ⟨l.map fun ts => ⟨ts, true, false⟩, ?_, ?_⟩
    · unfold OpB.getOperators
      rw [hs.size, mapM_ok _ (fun b => if h : b < l.length then ⟨l[b], true, false⟩ else ⟨[], true, false⟩)]
      · congr 1
        apply List.ext_getElem
        · simp
        · intro i h1 h2
          have hi : i < l.length := by simpa using h2
          simp [hi]
      · intro b hb
        rw [dif_pos (List.mem_range.1 hb)]
        exact at_ b (List.mem_range.1 hb)
    · rw [List.map_map]
      exact List.map_id _
  · rintro ops rfl
    unfold OpB.ofOps OpB.ofLists
    rw [List.map_map]
    rfl

/-- **C30** (load).  `load` of as many lists as there are slots puts list `b` into slot `b`; any other number of lists throws. -/
theorem C30_load (l l' : List (List PauliOp)) :
    (l'.length = l.length → ∃ r, (OpB.ofLists l).load l' = .ok r ∧ r.batchSize = l.length ∧
      ∀ (b : Nat) (h : b < l'.length), ∃ o, r.getOperatorAt b = .ok o ∧ o.terms = l'[b]) ∧
    (l'.length ≠ l.length → ∃ e, (OpB.ofLists l).load l' = .error (.throw e)) := by
  unfold OpB.load
  have hl : ∀ l : List (List PauliOp), (rowPtrOf (l.map List.length)).length = l.length + 1 := fun l => by simp [rowPtrOf]
  rw [hl, show (OpB.ofLists l).rowPtr.length = l.length + 1 from hl l]
  constructor
  · intro h
    rw [if_neg (by omega)]
    obtain ⟨h1, h2, -⟩ := C30_slots l'
    refine ⟨_, rfl, h1.trans h, fun b hb => ?_⟩
    obtain ⟨r, -, h3, h4, -⟩ := h2 b hb
    exact ⟨r, h3, h4⟩
  · intro h
    rw [if_pos (by omega)]
    exact ⟨_, rfl⟩

example (P Q : PauliOp) : ([[Q], [], [P, Q]] : List (List PauliOp)).length = [[P], [P, Q], []].length := rfl

/-- **C30** (sum).  `A + B` returns, under every schedule, exactly the batched operator whose slot `b` is the sum of the slots
`b`; it is rejected iff the batch sizes differ. -/
theorem C30_add (la lb : List (List PauliOp)) :
    (∀ r, (OpB.ofLists la).Adds (OpB.ofLists lb) r ↔
      la.length = lb.length ∧ r = OpB.ofLists (List.zipWith (· ++ ·) la lb)) ∧
    (la.length ≠ lb.length → ∃ e, (OpB.ofLists la).binaryCheck (OpB.ofLists lb) = .error (.throw e)) ∧
    ∀ (b : Nat) (ha : b < la.length) (hb : b < lb.length) (hr : b < (List.zipWith (· ++ ·) la lb).length) ψ j,
      sumOperator (List.zipWith (· ++ ·) la lb)[b] ψ j = sumOperator la[b] ψ j + sumOperator lb[b] ψ j := by
  refine ⟨adds_spec (slots_ofLists la) (slots_ofLists lb), fun h => ?_, fun b ha hb hr ψ j => ?_⟩
  · unfold OpB.binaryCheck
    rw [(slots_ofLists la).rowLength, (slots_ofLists lb).rowLength, if_pos (by omega)]
    exact ⟨_, rfl⟩
  · rw [List.getElem_zipWith, sumOperator_eq, sumOperator_eq, sumOperator_eq]
    exact opAct_append _ _ _ _

/-- **C30** (product).  `A * B` returns, under every schedule, exactly the batched operator whose slot `b` is the product of
the slots `b`; it is rejected iff the batch sizes differ. -/
theorem C30_mul (la lb : List (List PauliOp)) :
    (∀ r, (OpB.ofLists la).Muls (OpB.ofLists lb) r ↔
      la.length = lb.length ∧ r = OpB.ofLists (List.zipWith products la lb)) ∧
    ∀ (b : Nat) (ha : b < la.length) (hb : b < lb.length) (hr : b < (List.zipWith products la lb).length) ψ j,
      sumOperator (List.zipWith products la lb)[b] ψ j = sumOperator la[b] (sumOperator lb[b] ψ) j := by
  refine ⟨muls_spec (slots_ofLists la) (slots_ofLists lb), fun b ha hb hr ψ j => ?_⟩
  rw [List.getElem_zipWith]
  exact (C28_arithmetic ⟨la[b], true, false⟩ ⟨lb[b], true, false⟩ ⟨1, 0, 0⟩ 1 ψ j).2.2.1

/-- **C30** (dagger, negation).  `get_dagger` and unary minus act on every slot. -/
theorem C30_dagger (l : List (List PauliOp)) :
    (OpB.ofLists l).dagger = OpB.ofLists (l.map fun ts => ts.map PauliOp.dagger) ∧
    (OpB.ofLists l).neg = OpB.ofLists (l.map fun ts => ts.map fun p => p.scale (-1)) ∧
    (∀ ts : List PauliOp, ∀ n, n ≤ 64 → (∀ p ∈ ts, PauliFits p n) → ∀ φ ψ,
      inner (2 ^ n) φ (sumOperator ts ψ) = (starRingEnd ℂ) (inner (2 ^ n) ψ (sumOperator (ts.map PauliOp.dagger) φ))) ∧
    ∀ (ts : List PauliOp) ψ j, sumOperator (ts.map fun p => p.scale (-1)) ψ j = - sumOperator ts ψ j := by
  refine ⟨?_, ?_, fun ts n hn h φ ψ => ?_, fun ts ψ j => ?_⟩
  · unfold OpB.dagger OpB.ofLists
    simp [List.map_flatten, Function.comp_def]
  · unfold OpB.neg OpB.ofLists
    simp [List.map_flatten, Function.comp_def]
  · exact C21_operator_dagger ⟨ts, true, false⟩ hn h φ ψ
  · exact (C28_arithmetic ⟨ts, true, false⟩ ⟨ts, true, false⟩ ⟨1, 0, 0⟩ 1 ψ j).2.2.2.2.2.1

/-- a ragged example: slots `{X₀}` and `{}` plus slots `{Z₀, X₁}` and `{Y₁}` -/
example : (OpB.ofLists [[⟨1, 1, 0⟩], []]).Adds (OpB.ofLists [[⟨1, 0, 1⟩, ⟨1, 2, 0⟩], [⟨1, 2, 2⟩]])
    (OpB.ofLists [[⟨1, 1, 0⟩, ⟨1, 0, 1⟩, ⟨1, 2, 0⟩], [⟨1, 2, 2⟩]]) := by
  rw [(C30_add _ _).1]; exact ⟨rfl, rfl⟩

/-- the Hermitian flag of a slot taken out of a batched operator is always `true`, also for `{i X₀}` -/
theorem C29_counterexample_batched :
    ∃ o, (OpB.ofLists [[⟨-Complex.I, 1, 1⟩]]).getOperatorAt 0 = .ok o ∧ o.hermitian = true ∧ OpFits o 1 ∧
      ¬ IsHermitian 1 (sumOperator o.terms) := by
  refine ⟨⟨[⟨-Complex.I, 1, 1⟩], true, false⟩, rfl, rfl, ?_, not_hermitian_XZ⟩
  intro p hp
  obtain rfl := List.mem_singleton.1 hp
  unfold PauliFits
  decide

/-! ## C31 -/

theorem zipIdx_scale (l : List PauliOp) (coefs : List ℂ) (k : Nat) (h : l.length + k ≤ coefs.length) :
    (l.zipIdx k).mapM (scaleItem coefs) =
      .ok (List.zipWith (fun p c => p.scale c) l (coefs.drop k)) := by
  induction l generalizing k with
  | nil => rfl
  | cons x l ih =>
    have hk : k < coefs.length := by simp at h; omega
    rw [List.zipIdx_cons, List.mapM_cons]
    rw [List.drop_eq_getElem_cons hk, List.zipWith_cons_cons]
    have e : scaleItem coefs (x, k) = .ok (x.scale coefs[k]) := by
      unfold scaleItem
      rw [List.getElem?_eq_getElem hk]
    rw [e, ih (k + 1) (by simp at h; omega)]
    rfl

/-- **C31** (part).  With one term in every slot, multiplying by one coefficient per slot multiplies the term of slot `b` by
coefficient `b`; a vector of any other length is rejected.  Missing: slots with zero terms or more than one term
(`C31_counterexample_wrong`, `C31_counterexample_ub`). -/
theorem C31_scale_partial (ts : List PauliOp) (coefs : List ℂ) :
    (coefs.length = ts.length → (OpB.ofLists (ts.map fun p => [p])).scale coefs =
      .ok (OpB.ofLists (List.zipWith (fun p c => [p.scale c]) ts coefs))) ∧
    (∀ l : List (List PauliOp), coefs.length ≠ l.length → ∃ e, (OpB.ofLists l).scale coefs = .error (.throw e)) := by
  constructor
  · intro h
    unfold OpB.scale
    rw [(slots_ofLists _).size, if_neg (by simpa using h)]
    have e : (OpB.ofLists (ts.map fun p => [p])).ops = ts := by
      show (ts.map fun p => [p]).flatten = ts
      clear h
      induction ts with
      | nil => rfl
      | cons x ts ih => rw [List.map_cons, List.flatten_cons, ih]; rfl
    rw [e, zipIdx_scale ts coefs 0 (by omega)]
    show Except.ok _ = Except.ok _
    congr 1
    apply ofLists_ext
    · show rowPtrOf _ = rowPtrOf _
      congr 1
      apply List.ext_getElem
      · simp [h]
      · intro i h1 h2; simp
    · show List.zipWith _ ts (coefs.drop 0) = List.flatten _
      rw [List.drop_zero]
      clear e
      induction ts generalizing coefs with
      | nil => simp
      | cons x ts ih =>
        cases coefs with
        | nil => simp at h
        | cons c cs => simp only [List.zipWith_cons_cons, List.flatten_cons, List.singleton_append]
                       rw [ih cs (by simpa using h)]
  · intro l h
    unfold OpB.scale
    rw [(slots_ofLists _).size, if_pos h]
    exact ⟨_, rfl⟩

/-- two slots with a term each meet the hypothesis -/
example : (OpB.ofLists [[⟨1, 1, 0⟩], [⟨1, 0, 1⟩]]).scale [2, 3] = .ok (OpB.ofLists [[⟨2, 1, 0⟩], [⟨3, 0, 1⟩]]) := by
  have := (C31_scale_partial [⟨1, 1, 0⟩, ⟨1, 0, 1⟩] [2, 3]).1 rfl
  refine this.trans ?_
  simp [PauliOp.scale]

/-- **C31** fails: in `{X₀, Z₀}, {}` times `(2, 3)` the second term of slot 0 is multiplied by the coefficient of slot 1. -/
theorem C31_counterexample_wrong :
    (OpB.ofLists [[⟨1, 1, 0⟩, ⟨1, 0, 1⟩], []]).scale [2, 3] = .ok (OpB.ofLists [[⟨2, 1, 0⟩, ⟨3, 0, 1⟩], []]) ∧
    sumOperator [⟨2, 1, 0⟩, ⟨3, 0, 1⟩] (basisState 0) 0 ≠ 2 * sumOperator [⟨1, 1, 0⟩, ⟨1, 0, 1⟩] (basisState 0) 0 := by
  constructor
  · unfold OpB.scale
    rw [(slots_ofLists _).size, if_neg (by simp)]
    have e : (OpB.ofLists [[⟨1, 1, 0⟩, ⟨1, 0, 1⟩], []]).ops = [⟨1, 1, 0⟩, ⟨1, 0, 1⟩] := rfl
    rw [e, zipIdx_scale _ [2, 3] 0 (by simp)]
    simp [PauliOp.scale]
    rfl
  · simp only [sumOperator, List.map_cons, List.map_nil, List.sum_cons, List.sum_nil, add_zero, pauliOperator_eq]
    unfold PauliAct pauliAct pauliExp
    have p1 : popcount ((1 : U64) &&& 0) = 0 := by decide
    have p2 : popcount ((0 : U64) &&& 1) = 0 := by decide
    have p3 : popcount ((0 : U64) &&& 0) = 0 := by decide
    have x2 : (0 : U64) ^^^ 1 = 1 := by decide
    have x3 : (0 : U64) ^^^ 0 = 0 := by decide
    have b1 : basisState 0 1 = 0 := by simp [basisState]
    have b0 : basisState 0 0 = 1 := by simp [basisState]
    simp only [x2, x3, p1, p2, p3, b1, b0]
    norm_num

/-- **C31** fails: `{X₀, Z₀}` times `(2)` reads the coefficient vector out of range. -/
theorem C31_counterexample_ub :
    (OpB.ofLists [[⟨1, 1, 0⟩, ⟨1, 0, 1⟩]]).scale [2] = .error (.ub "coef_view[i] out of range") := by
  rfl

/-! ## C32 -/

/-- **C32** (part).  `A + paulis` appends to slot `b` the `b`-th Pauli operator of the vector, under every schedule, for vectors of
*one more* element than there are slots.  Missing: vectors of batch-size length (always rejected, see
`C32_counterexample_size`) and the product (`C32_counterexample_mul`). -/
theorem C32_add_partial (l : List (List PauliOp)) (ps : List PauliOp) (r : OpB) :
    ((OpB.ofLists l).AddsPaulis ps r ↔
      ps.length = l.length + 1 ∧ r = OpB.ofLists (List.zipWith (fun a p => a ++ [p]) l ps)) ∧
    ∀ (ts : List PauliOp) (p : PauliOp) ψ j, sumOperator (ts ++ [p]) ψ j = sumOperator ts ψ j + pauliOperator p ψ j := by
  refine ⟨addsPaulis_spec (slots_ofLists l) ps r, fun ts p ψ j => ?_⟩
  simp [sumOperator]

example : (OpB.ofLists [[⟨1, 1, 0⟩], []]).AddsPaulis [⟨1, 0, 1⟩, ⟨1, 2, 0⟩, ⟨1, 0, 0⟩]
    (OpB.ofLists [[⟨1, 1, 0⟩, ⟨1, 0, 1⟩], [⟨1, 2, 0⟩]]) := by
  rw [(C32_add_partial _ _ _).1]; exact ⟨rfl, rfl⟩

/-- **C32** fails: a vector with exactly one Pauli operator per slot is always rejected. -/
theorem C32_counterexample_size (l : List (List PauliOp)) (ps : List PauliOp) (h : ps.length = l.length) :
    ∃ e, (OpB.ofLists l).paulisCheck ps = .error (.throw e) := by
  unfold OpB.paulisCheck
  rw [(slots_ofLists l).rowLength, if_pos (by omega)]
  exact ⟨_, rfl⟩

example : ([⟨1, 1, 0⟩] : List PauliOp).length = ([[⟨1, 0, 1⟩]] : List (List PauliOp)).length := rfl

/-- **C32** fails: whatever the vector, `A * paulis` and `A *= paulis` never return for a batch with a slot — the vector is
rejected or a work item reads `_ops` out of range. -/
theorem C32_counterexample_mul (l : List (List PauliOp)) (hl : l ≠ []) (ps : List PauliOp) (r : OpB) :
    ¬ (OpB.ofLists l).MulsPaulis ps r ∧ ¬ (OpB.ofLists l).MulsPaulisAssign ps r := by
  have hs := slots_ofLists l
  have hpos : 0 < l.length := List.length_pos_iff.2 hl
  let b : Fin (OpB.ofLists l).batchSize := ⟨l.length - 1, by rw [hs.size]; omega⟩
  have e : (OpB.ofLists l).first b + ((OpB.ofLists l).last b - (OpB.ofLists l).first b) = (OpB.ofLists l).ops.length := by
    rw [hs.len, hs.first, ← offset_succ, show b.val + 1 = l.length by show l.length - 1 + 1 = _; omega]
    unfold offset
    rw [List.take_of_length_le (by simp), ← length_flatten]
    rfl
  constructor
  · rintro ⟨-, -, -, h⟩
    refine h.in_range _ .refl ⟨⟨b, ⟨_, Nat.lt_succ_self _⟩⟩, _, ?_, Or.inl ⟨_, rfl⟩⟩
    dsimp only
    rw [e]
    rintro (⟨-, h2⟩ | ⟨h2, -⟩ | ⟨h2, -⟩)
    · exact absurd h2 (lt_irrefl _)
    · cases h2
    · cases h2
  · rintro ⟨-, -, -, h⟩
    refine h.in_range _ .refl ⟨⟨b, ⟨_, Nat.lt_succ_self _⟩⟩, _, ?_, Or.inl ⟨_, rfl⟩⟩
    dsimp only
    rw [e]
    rintro (⟨-, h2⟩ | ⟨h2, -⟩ | ⟨h2, -⟩)
    · exact absurd h2 (lt_irrefl _)
    · cases h2
    · cases h2

/-! ## C55 -/

/-- **C55** (part).  Expectation values and transition amplitudes of a batched operator are, slot by slot, those of the
operators in the slots, for states of at least one qubit.  Missing: states without qubits (as in `C26_counterexample`);
`get_applied_states` is in `C55_states_partial`. -/
theorem C55_values_partial (l : List (List PauliOp)) {n : Nat} (hn1 : 1 ≤ n) (hn : n ≤ 64)
    (h : ∀ ts ∈ l, ∀ p ∈ ts, PauliFits p n) :
    (∀ ψ, (OpB.ofLists l).expectation (2 ^ n) ψ = .ok (l.map fun ts => inner (2 ^ n) ψ (sumOperator ts ψ))) ∧
    (∀ bra ket, (OpB.ofLists l).transition n n bra ket = .ok (l.map fun ts => inner (2 ^ n) bra (sumOperator ts ket))) ∧
    (∀ raw, (OpB.ofLists l).expectationBatched ⟨n, l.length, raw⟩ =
      .ok (l.zipIdx.map fun w => inner (2 ^ n) (raw w.2) (sumOperator w.1 (raw w.2)))) ∧
    (∀ bra ket, (OpB.ofLists l).transitionBatched ⟨n, l.length, bra⟩ ⟨n, l.length, ket⟩ =
      .ok (l.zipIdx.map fun w => inner (2 ^ n) (bra w.2) (sumOperator w.1 (ket w.2)))) ∧
    (∀ s : Batch, s.size ≠ l.length → ∃ e, (OpB.ofLists l).expectationBatched s = .error (.throw e)) := by
  have hs := slots_ofLists l
  have key : ∀ f g : Nat → U64 → ℂ, ((List.finRange (OpB.ofLists l).batchSize).mapM fun b => do
      let ts ← subview (OpB.ofLists l).ops ((OpB.ofLists l).first b) ((OpB.ofLists l).last b)
      reducePairs (termRange ts (2 ^ n >>> 1)) (transItem (2 ^ n) (f b.val) (g b.val))) =
      .ok (l.zipIdx.map fun w => inner (2 ^ n) (f w.2) (sumOperator w.1 (g w.2))) := by
    intro f g
    rw [mapM_ok _ (fun b => inner (2 ^ n) (f b.val) (sumOperator (l[b.val]'(hs.bound b)) (g b.val)))]
    · congr 1
      apply List.ext_getElem
      · simp [hs.size]
      · intro i h1 h2
        simp
    · intro b _
      rw [hs.subview b, sumOperator_eq]
      exact opTransition_spec ⟨_, true, false⟩ hn1 hn
        (opFits_x (o := ⟨_, true, false⟩) (h _ (List.getElem_mem (hs.bound b)))) _ _
  have drop : ∀ F : List PauliOp → ℂ, (l.zipIdx.map fun w => F w.1) = l.map F := by
    intro F
    apply List.ext_getElem
    · simp
    · intro i h1 h2; simp
  refine ⟨fun ψ => ?_, fun bra ket => ?_, fun raw => ?_, fun bra ket => ?_, fun s hne => ?_⟩
  · exact (key (fun _ => ψ) (fun _ => ψ)).trans (congrArg _ (drop fun ts => inner (2 ^ n) ψ (sumOperator ts ψ)))
  · unfold OpB.transition
    rw [if_neg (by simp)]
    exact (key (fun _ => bra) (fun _ => ket)).trans (congrArg _ (drop fun ts => inner (2 ^ n) bra (sumOperator ts ket)))
  · unfold OpB.expectationBatched
    rw [if_neg (by rw [hs.size]; simp)]
    exact key raw raw
  · unfold OpB.transitionBatched
    rw [if_neg (by simp), if_neg (by simp), if_neg (by rw [hs.size]; simp)]
    exact key bra ket
  · unfold OpB.expectationBatched
    rw [if_pos (by rw [hs.size]; exact fun e => hne e.symm)]
    exact ⟨_, rfl⟩

example : (1 : Nat) ≤ 2 ∧ ∀ ts ∈ ([[⟨1, 1, 0⟩], [], [⟨1, 2, 1⟩]] : List (List PauliOp)), ∀ p ∈ ts, PauliFits p 2 := by
  refine ⟨by norm_num, ?_⟩
  intro ts hts p hp
  simp only [List.mem_cons, List.not_mem_nil, or_false] at hts
  rcases hts with rfl | rfl | rfl <;> simp only [List.mem_cons, List.not_mem_nil, or_false] at hp
  · subst hp; unfold PauliFits; decide
  · subst hp; unfold PauliFits; decide

end Verif.Props
