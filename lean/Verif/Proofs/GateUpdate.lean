import Verif.Proofs.GateObj

/-! # `update_quantum_state` of a valid gate object applies its operator -/

namespace Verif.Proofs
open Verif Verif.Spec Verif.Model
attribute [-simp] BitVec.getLsbD_eq_getElem

theorem pauliQubits_eq (p : PauliOp) : pauliQubits p = p.targetList := by
  unfold PauliOp.targetList
  obtain ⟨h1, h2⟩ := maskToVector_spec (p.x ||| p.z)
  apply sorted_ext _ h2
  · intro i
    rw [h1, pauliQubits, List.mem_filter, List.mem_range, BitVec.getLsbD_or]
    constructor
    · exact fun h => h.2
    · intro h
      refine ⟨?_, h⟩
      by_contra hi
      rw [BitVec.getLsbD_of_ge _ _ (by omega), BitVec.getLsbD_of_ge _ _ (by omega)] at h
      cases h
  · exact List.Pairwise.filter _ List.pairwise_lt_range

theorem letterAt_eq (p : PauliOp) (q : Nat) : letterAt p q = letter (p.x.getLsbD q) (p.z.getLsbD q) := by
  unfold letterAt
  cases p.x.getLsbD q <;> cases p.z.getLsbD q <;> rfl

theorem pauliMat_eq (p : PauliOp) : pauliMat p = pauliStringMat ((pauliLetters p).map Prod.snd) := by
  unfold pauliMat
  rw [pauliQubits_eq, pauliLetters, List.map_map]
  exact congrArg pauliStringMat (List.map_congr_left fun q _ => letterAt_eq p q)

theorem applyMat_pauliMat (p : PauliOp) (ψ : U64 → ℂ) :
    applyMat p.targetList (pauliMat p) [] ψ = pauliAct p.x p.z ψ := by
  rw [pauliMat_eq, applyMat_pauli]

/-- operator of a Pauli gate -/
theorem applyMat_pauliCoef (p : PauliOp) (c : ℂ) (cs : List (Nat × Bool)) (ψ : U64 → ℂ) :
    applyMat p.targetList (fun r s => c * pauliMat p r s) cs ψ =
      fun j => if CtrlOK cs j then c * pauliAct p.x p.z ψ j else ψ j := by
  funext j
  rw [applyMat_ctrl, applyMat_scale, applyMat_pauliMat]

/-- operator of a Pauli rotation gate -/
theorem applyMat_pauliRot (p : PauliOp) (a b : ℂ) (cs : List (Nat × Bool)) (ψ : U64 → ℂ) :
    applyMat p.targetList (fun r s => a * matOne r s - b * pauliMat p r s) cs ψ =
      fun j => if CtrlOK cs j then a * ψ j - b * pauliAct p.x p.z ψ j else ψ j := by
  funext j
  have e : (fun r s => a * matOne r s - b * pauliMat p r s) =
      fun r s => (fun r s => a * matOne r s) r s + (fun r s => (-b) * pauliMat p r s) r s := by
    funext r s; ring
  rw [applyMat_ctrl, e, applyMat_sum, applyMat_scale, applyMat_scale, applyMat_pauliMat,
    applyMat_one_id (show TargetsOK p.targetList from targetsOK_maskToVector _)]
  congr 1; ring

theorem maskToVector_sorted (m : U64) : (maskToVector m).Pairwise (· < ·) := (maskToVector_spec m).2

theorem sortQ_maskToVector (m : U64) : sortQ (maskToVector m) = maskToVector m :=
  sorted_ext (sortQ_pairwise (maskToVector_nodup m)) (maskToVector_sorted m) (fun _ => mem_sortQ)

theorem mem_controls {o : Operands} {q : Nat} : (∃ b, (q, b) ∈ controls o) ↔ q ∈ maskToVector o.c := by
  unfold controls
  simp only [List.mem_map, Prod.mk.injEq]
  constructor
  · rintro ⟨b, q', h, rfl, -⟩; exact h
  · intro h; exact ⟨_, q, h, rfl, rfl⟩

/-- two-qubit matrices on exchanged qubits -/
theorem applyMat_flip2 {a b : Nat} (ha : a < 64) (hb : b < 64) (hne : a ≠ b) (U : Nat → Nat → ℂ)
    (cs : List (Nat × Bool)) : applyMat [a, b] U cs = applyMat [b, a] (fun r s => U (flip2 r) (flip2 s)) cs := by
  have h1 : TargetsOK [a, b] := ⟨by simp [hne], by intro q; simp; omega⟩
  have h2 : TargetsOK [b, a] := ⟨by simp [Ne.symm hne], by intro q; simp; omega⟩
  rw [applyMat_reorder h1 h2 (by intro q; simp; omega)]
  apply applyMat_congr
  intro r s hr hs
  have key : ∀ x, x < 2 ^ [b, a].length → reorder [b, a] [a, b] x = flip2 x := by
    intro x hx
    simp only [List.length_cons, List.length_nil] at hx
    unfold reorder
    simp only [putBits, getBits]
    rw [getLsbD_setBit _ ha, getLsbD_setBit _ ha, if_pos rfl, if_neg (Ne.symm hne), getLsbD_setBit _ hb, if_pos rfl]
    have : x = 0 ∨ x = 1 ∨ x = 2 ∨ x = 3 := by omega
    rcases this with rfl | rfl | rfl | rfl <;> rfl
  rw [key r hr, key s hs]

theorem perm_targets {g : PermGate} (hk : g.dst.length < 64) (h : permCtor g.dst = .ok g) :
    maskToVector g.o.t = List.range g.dst.length ∧ g.o.c = 0 ∧ g.o.v = 0 := by
  obtain ⟨hp, -, hs, hw, hmk⟩ := permCtor_spec hk h
  obtain ⟨-, -, -, -, -, -, -, tb, cb, vb⟩ := mkOperands_ok hmk
  refine ⟨?_, ?_, ?_⟩
  · rw [target_list hmk]
    apply sorted_ext (sortQ_pairwise hp.nodup) List.pairwise_lt_range
    intro i
    rw [mem_sortQ, List.mem_range]
    exact ⟨fun hi => hp.lt i hi, fun hi => by obtain ⟨m, hm, rfl⟩ := isPerm_mem hp hi; exact List.getElem_mem hm⟩
  · apply U64.ext; intro i _; rw [cb]; simp
  · apply U64.ext; intro i _; rw [vb]; simp

theorem csr_rows {R : Type} (m : SMat R) : (List.range (Csr.ofSMat m).rows).mapM (Csr.ofSMat m).row =
    .ok (m.stored.map fun row => row.map fun p => (p.2, p.1)) := by
  have : (Csr.ofSMat m).rows = (m.stored.map fun row => row.map fun p => (p.2, p.1)).length := by
    simp [Csr.ofSMat]
  rw [this, List.range_eq_range']
  apply mapM_range'
  intro i hi
  rw [Nat.zero_add, csr_row m (by simpa using hi), List.getElem_map]

theorem csr_toExternal {m : SMat ℂ} {d : Nat} (h : SMat.OK m d) :
    ∃ M, (Csr.ofSMat m).toExternal = .ok M ∧ M.rows = d ∧ M.cols = d ∧
      ∀ i j, i < d → j < d → M.entry i j = m.toDense.entry i j := by
  have hrows := csr_rows m
  unfold Csr.toExternal
  rw [hrows, ok_bind]
  have hall : (m.stored.map (fun row => row.map (fun p => (p.2, p.1)))).all
      (fun r => r.all (fun p => decide (p.2 < (Csr.ofSMat m).cols))) = true := by
    rw [List.all_eq_true]
    intro r hr
    rw [List.mem_map] at hr
    obtain ⟨row, hrow, rfl⟩ := hr
    rw [List.all_eq_true]
    intro p hp
    rw [List.mem_map] at hp
    obtain ⟨q, hq, rfl⟩ := hp
    have := (h.inner row hrow).1 q hq
    simpa [Csr.ofSMat, h.cols] using this
  rw [if_pos hall]
  refine ⟨_, rfl, h.rows, h.cols, ?_⟩
  intro i j hi hj
  have hi' : i < m.stored.length := by rw [h.rows]; exact hi
  simp only [List.getElem?_map, List.getElem?_eq_getElem hi', Option.map_some, SMat.toDense]
  have hnd := (h.inner _ (List.getElem_mem hi')).2
  generalize m.stored[i] = row at hnd
  rw [List.foldl_map]
  have gen : ∀ (row : List (Nat × ℂ)) (acc : ℂ), (row.map Prod.fst).Nodup →
      row.foldl (fun acc p => if p.1 = j then p.2 else acc) acc =
        match row.find? (fun p => decide (p.1 = j)) with
        | none => acc
        | some p => p.2 := by
    intro row
    induction row with
    | nil => intros; rfl
    | cons p row ih =>
      intro acc hnd
      rw [List.map_cons, List.nodup_cons] at hnd
      rw [List.foldl_cons, ih _ hnd.2, List.find?_cons]
      by_cases hp : p.1 = j
      · have hnone : row.find? (fun p => decide (p.1 = j)) = none := by
          rw [List.find?_eq_none]
          intro q hq hqj
          simp only [decide_eq_true_eq] at hqj
          exact hnd.1 (by rw [hp, ← hqj]; exact List.mem_map_of_mem hq)
        rw [hnone]; simp [hp]
      · simp [hp]
  refine (gen row 0 hnd).trans ?_
  cases row.find? (fun p => decide (p.1 = j)) <;> rfl

theorem storedEntry_eq (m : SMat ℂ) (i j : Nat) : storedEntry m i j = m.toDense.entry i j := by
  unfold storedEntry SMat.toDense
  dsimp only
  cases m.stored[i]? with
  | none => rfl
  | some row =>
    dsimp only
    cases row.find? (fun p => decide (p.1 = j)) <;> rfl

theorem matOf_sparse {g : SparseGate} {m : SMat ℂ} {d : Nat} (h : SMat.OK m d) (hm : g.mat = .ofSMat m) {i j : Nat}
    (hi : i < d) (hj : j < d) : matOf (.sparse g) i j = m.toDense.entry i j := by
  obtain ⟨M, h1, -, -, h4⟩ := csr_toExternal h
  simp only [matOf, hm, h1]
  exact h4 i j hi hj

theorem upd_ok {o : Operands} {n : Nat} (h : checkWithinBounds o n = .ok ()) (d : Device ℂ) :
    (do checkWithinBounds o n; pure d) = Except.ok d := by rw [h]; rfl

/-- a valid gate whose qubits are all below `n` is accepted, and under every schedule transforms the state by its
operator -/
theorem update_valid {g : UGate} (hv : Valid g) {L B n : Nat} (hL : LanesOK L) (hn : n < 64)
    (hsize : B * 2 ^ n ≤ 2 ^ 64) (ht : ∀ q ∈ UGate.ts g, q < n) (hc : ∀ p ∈ UGate.cs g, p.1 < n) :
    ∃ d, g.update L B n = .ok d ∧ ∀ ψ, DRuns (B * 2 ^ n) d ψ (onState (B * 2 ^ n) (opOf g) ψ) := by
  have hck : OperandsOK g.operands → checkWithinBounds g.operands n = .ok () := by
    intro ho
    rw [checkWithinBounds_self ho hn]
    rintro x (hx | hx)
    · exact ht x hx
    · obtain ⟨b, hb⟩ := mem_controls.2 hx
      exact hc _ hb
  unfold opOf
  cases g with
  | ident =>
    refine ⟨_, rfl, fun ψ => ?_⟩
    have : onState (B * 2 ^ n) (applyMat (UGate.ts .ident) (matOf .ident) (UGate.cs .ident)) ψ = ψ := by
      funext j
      unfold onState
      split
      · exact congrFun (applyMat_one_id (targetsOK_maskToVector _) ψ) j
      · rfl
    rw [this]
    rfl
  | globalPhase phase o =>
    obtain ⟨ho, h0⟩ := hv
    have hmk := mkOperands_self ho
    rw [h0, maskToVector_zero] at hmk
    obtain ⟨d, hd⟩ : ∃ d, globalPhaseUpdate L B n phase o = .ok d := ⟨_, upd_ok (hck ho) _⟩
    refine ⟨_, hd, fun ψ => ?_⟩
    have := globalPhase_spec hL hmk hsize hd ψ
    rw [ctrlList_self] at this
    have e : UGate.ts (.globalPhase phase o) = [] := by
      show maskToVector o.t = []
      rw [h0, maskToVector_zero]
    rw [e]; exact this
  | one k o =>
    obtain ⟨ho, q, hq⟩ := hv
    have hmk := mkOperands_self ho
    rw [hq] at hmk
    have ctx := ctx_of hmk (hck ho) hsize
    refine ⟨_, upd_ok (hck ho) _, fun ψ => ?_⟩
    have := gate1Kernel_spec hL ctx.masks (isBit_of hmk) _ ctx.ctrl k ψ
    rw [ctrlList_self] at this
    rw [show UGate.ts (.one k o) = [q] from hq]; exact this
  | swap o =>
    obtain ⟨ho, a, b, hab⟩ := hv
    have hmk := mkOperands_self ho
    rw [hab] at hmk
    obtain ⟨d, hd⟩ : ∃ d, swapUpdate B n o = .ok d := ⟨_, upd_ok (hck ho) _⟩
    refine ⟨_, hd, fun ψ => ?_⟩
    have := swap_spec hmk hsize hd ψ
    rw [ctrlList_self] at this
    rw [show UGate.ts (.swap o) = [a, b] from hab]; exact this
  | ecr g =>
    obtain ⟨ho, a, b, hne, ha, hb, hgt⟩ := hv
    have hmk := mkOperands_self ho
    have ctx := ctx_of hmk (hck ho) hsize
    refine ⟨_, upd_ok (hck ho) _, fun ψ => ?_⟩
    have hm := ctx.masks
    rw [hgt] at hm
    obtain ⟨e0, e1, e2, e3⟩ := ecrMat_entries
    have := ecrGate_spec hm ha hb hne _ ctx.ctrl _ _ _ ecrMat e0 e1 e2 e3 ψ
    rw [ctrlList_self] at this
    have ema : g.pc = 1#64 <<< a := U64.ext fun i _ => by rw [ha.2, getLsbD_one_shl ha.1]
    have emb : g.pt = 1#64 <<< b := U64.ext fun i _ => by rw [hb.2, getLsbD_one_shl hb.1]
    have hlt : g.pc.toNat < g.pt.toNat ↔ a < b := by
      rw [ema, emb, toNat_one_shl ha.1, toNat_one_shl hb.1]
      exact Nat.pow_lt_pow_iff_right (by omega)
    have hts : ∀ i, i ∈ maskToVector g.o.t ↔ i = a ∨ i = b := by
      intro i
      rw [mem_maskToVector, hgt, BitVec.getLsbD_or, ha.2, hb.2]
      simp [or_comm]
    by_cases hab : a < b
    · have e : UGate.ts (.ecr g) = [a, b] :=
        sorted_ext (maskToVector_sorted _) (by simp [hab]) (by intro i; rw [show UGate.ts (.ecr g) = maskToVector g.o.t from rfl, hts]; simp)
      rw [e]
      simp only [matOf, if_pos (hlt.2 hab)]
      exact this
    · have e : UGate.ts (.ecr g) = [b, a] :=
        sorted_ext (maskToVector_sorted _) (by simp; omega)
          (by intro i; rw [show UGate.ts (.ecr g) = maskToVector g.o.t from rfl, hts, or_comm]; simp)
      rw [e]
      simp only [matOf, if_neg (fun hh => hab (hlt.1 hh))]
      rw [← applyMat_flip2 ha.1 hb.1 hne]
      exact this
  | perm g =>
    obtain ⟨hk, hg⟩ := hv
    obtain ⟨h1, h2, h3⟩ := perm_targets hk hg
    have ho : OperandsOK g.o := operandsOK_of (permCtor_spec hk hg).2.2.2.2
    obtain ⟨d, hd⟩ : ∃ d, permUpdate B n g = .ok d := ⟨_, upd_ok (hck ho) _⟩
    refine ⟨_, hd, fun ψ => ?_⟩
    have := (perm_update hk hg hsize hd ψ).2
    have e1 : UGate.cs (.perm g) = [] := by
      show controls g.o = []
      unfold controls
      rw [h2, maskToVector_zero]; rfl
    have e2 : applyMat (UGate.ts (.perm g)) (matOf (.perm g)) (UGate.cs (.perm g)) =
        (fun ψ j => ψ (putBits j (List.range g.dst.length) (getBits j g.dst))) := by
      funext φ j
      rw [e1, show UGate.ts (.perm g) = _ from h1]
      exact applyMat_permMat (by omega) (permCtor_spec hk hg).1 φ j
    rw [e2]
    exact this
  | dense g =>
    obtain ⟨ho, hr, hcol⟩ := hv
    have hmk := mkOperands_self ho
    have hd : ∃ d, denseUpdate L B n g.mat g.o = .ok d := by
      unfold denseUpdate
      rw [show checkWithinBounds g.o n = _ from hck ho, ok_bind]
      rw [length_maskToVector] at hr hcol
      split_ifs with h1 h2 h3 h4
      · exact ⟨_, rfl⟩
      · exact ⟨_, rfl⟩
      · exact ⟨_, rfl⟩
      · exact ⟨_, rfl⟩
      · exact absurd ⟨hr.ge, hcol.ge⟩ h4
    obtain ⟨d, hd⟩ := hd
    refine ⟨d, hd, fun ψ => ?_⟩
    have := denseUpdate_spec hL hmk hsize g.mat hr hcol hd ψ
    rw [ctrlList_self, sortQ_maskToVector] at this
    exact this
  | sparse g =>
    obtain ⟨ho, m, hm, hgm⟩ := hv
    have hmk := mkOperands_self ho
    have hd : ∃ d, sparseUpdate B n g.mat g.o = .ok d := by
      unfold sparseUpdate
      rw [show checkWithinBounds g.o n = _ from hck ho, ok_bind, hgm]
      unfold sparseKernel
      rw [csr_rows]
      exact ⟨_, rfl⟩
    obtain ⟨d, hd⟩ := hd
    refine ⟨d, hd, fun ψ => ?_⟩
    rw [hgm] at hd
    have := sparseUpdate_spec hmk hsize m hm hd ψ
    rw [ctrlList_self, sortQ_maskToVector] at this
    rw [show applyMat (UGate.ts (.sparse g)) (matOf (.sparse g)) (UGate.cs (.sparse g)) = applyMat (maskToVector g.o.t) m.toDense.entry (controls g.o) from
      applyMat_congr (fun r s hr hs => matOf_sparse hm hgm hr hs)]
    exact this
  | pauli g =>
    obtain ⟨ho, hgt⟩ := hv
    have hmk := mkOperands_self ho
    rw [hgt] at hmk
    refine ⟨_, rfl, fun ψ => ?_⟩
    have hf := pauli_flipOK (B := B) (n := n) hmk (by
      rintro q (hq | hq)
      · exact ht q (by rw [show UGate.ts (.pauli g) = maskToVector g.o.t from rfl, hgt]; exact hq)
      · obtain ⟨b, hb⟩ := mem_controls.2 hq
        exact hc _ hb) hsize
    have := applyPauli_runs hf g.p.z g.p.coef (controls g.o) (ctrlOK_controls ho) ψ
    rw [show UGate.ts (.pauli g) = g.p.targetList from by simp only [UGate.ts, UGate.operands, hgt]; rfl]
    rw [show applyMat g.p.targetList (matOf (.pauli g)) (UGate.cs (.pauli g)) = _ from
      funext fun φ => applyMat_pauliCoef g.p g.p.coef (controls g.o) φ]
    exact this
  | pauliRot g angle =>
    obtain ⟨ho, hgt⟩ := hv
    have hmk := mkOperands_self ho
    rw [hgt] at hmk
    refine ⟨_, rfl, fun ψ => ?_⟩
    have hf := pauli_flipOK (B := B) (n := n) hmk (by
      rintro q (hq | hq)
      · exact ht q (by rw [show UGate.ts (.pauliRot g angle) = maskToVector g.o.t from rfl, hgt]; exact hq)
      · obtain ⟨b, hb⟩ := mem_controls.2 hq
        exact hc _ hb) hsize
    have := applyPauliRotation_runs hf g.p.z g.p.coef angle (controls g.o) (ctrlOK_controls ho) ψ
    rw [show UGate.ts (.pauliRot g angle) = g.p.targetList from by simp only [UGate.ts, UGate.operands, hgt]; rfl]
    rw [show applyMat g.p.targetList (matOf (.pauliRot g angle)) (UGate.cs (.pauliRot g angle)) = _ from
      funext fun φ => applyMat_pauliRot g.p _ _ (controls g.o) φ]
    exact this

end Verif.Proofs
