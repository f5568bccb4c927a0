import Verif.Proofs.MergeOne

/-! # `merge_gate`: Pauli products, and all cases together -/

namespace Verif.Proofs
open Verif Verif.Spec Verif.Model
attribute [-simp] BitVec.getLsbD_eq_getElem

/-! ## two Paulis on one qubit -/

theorem pauliId_one {g : UGate} {a : Nat} (h : pauliId g = some a) : ∃ k o, g = .one k o ∧ (k = .X ∧ a = 1 ∨ k = .Y ∧ a = 2 ∨ k = .Z ∧ a = 3) := by
  unfold pauliId at h
  split at h
  · cases h; exact ⟨_, _, rfl, by simp⟩
  · cases h; exact ⟨_, _, rfl, by simp⟩
  · cases h; exact ⟨_, _, rfl, by simp⟩
  · cases h

theorem cis_neg_half_pi : cis (-(Real.pi / 2)) = -Complex.I := by rw [cis_eq]; apply Complex.ext <;> simp

theorem pauli_sq {k : Gate1} (hk : k = .X ∨ k = .Y ∨ k = .Z) {r s : Nat} (hr : r < 2) (hs : s < 2) :
    matMul 1 (gate1Mat k) (gate1Mat k) r s = matOne r s := by
  rw [matMul_one_eq]
  rcases hk with rfl | rfl | rfl <;> rcases two_cases hr with rfl | rfl <;> rcases two_cases hs with rfl | rfl <;>
    simp [gate1Mat, pauliX, pauliY, pauliZ, mat2, matOne]

theorem pauliPair_mat {k1 k2 k : Gate1} {a b : Nat} {φ : ℝ} (h1 : k1 = .X ∧ a = 1 ∨ k1 = .Y ∧ a = 2 ∨ k1 = .Z ∧ a = 3)
    (h2 : k2 = .X ∧ b = 1 ∨ k2 = .Y ∧ b = 2 ∨ k2 = .Z ∧ b = 3) (h : pauliPair a b = some (k, φ)) {r s : Nat} (hr : r < 2) (hs : s < 2) :
    matMul 1 (gate1Mat k2) (gate1Mat k1) r s = cis φ * gate1Mat k r s := by
  rw [matMul_one_eq]
  rcases h1 with ⟨rfl, rfl⟩ | ⟨rfl, rfl⟩ | ⟨rfl, rfl⟩ <;> rcases h2 with ⟨rfl, rfl⟩ | ⟨rfl, rfl⟩ | ⟨rfl, rfl⟩ <;>
    simp only [pauliPair, Option.some.injEq, Prod.mk.injEq, reduceCtorEq] at h <;> obtain ⟨rfl, rfl⟩ := h <;>
    simp only [cis_half_pi, cis_neg_half_pi, gate1Mat] <;>
    rcases two_cases hr with rfl | rfl <;> rcases two_cases hs with rfl | rfl <;> simp [pauliX, pauliY, pauliZ, mat2]

theorem controls_empty {o : Operands} (h : o.c = 0) (j : U64) : CtrlOK (controls o) j := by
  unfold CtrlOK controls
  rw [h, maskToVector_zero]
  simp

theorem stagePauliPair_ok {g1 g2 : UGate} (hv1 : Valid g1) (hv2 : Valid g2)
    (hc : g1.operands.c = g2.operands.c) (hv : g1.operands.v = g2.operands.v) : StageOK (stagePauliPair g1 g2) g1 g2 := by
  unfold stagePauliPair
  split
  swap; · exact .inl rfl
  rename_i a b ha hb
  obtain ⟨k1, o1, rfl, h1⟩ := pauliId_one ha
  obtain ⟨k2, o2, rfl, h2⟩ := pauliId_one hb
  obtain ⟨t1, t2, e1, e2, hq, heq⟩ := one_same hv1 hv2 hc hv
  rw [e1, ok_bind, e2, ok_bind]
  split
  swap; · exact .inl rfl
  rename_i ht
  cases heq ht
  have ho : OperandsOK o1 := hv1.1
  split
  · rename_i hab
    subst hab
    have hk : k1 = k2 := by
      rcases h1 with ⟨rfl, rfl⟩ | ⟨rfl, rfl⟩ | ⟨rfl, rfl⟩ <;> rcases h2 with ⟨rfl, h⟩ | ⟨rfl, h⟩ | ⟨rfl, h⟩ <;> first | rfl | cases h
    subst hk
    refine StageOK.exact rfl (Merges.exact trivial (fun q hq => absurd hq (uses_ident q)) fun ψ j => ?_)
    rw [cis_zero, one_mul, opOf_ident, one_ident ho hq (fun r s hr hs => pauli_sq (by
      rcases h1 with ⟨h, -⟩ | ⟨h, -⟩ | ⟨h, -⟩ <;> simp [h]) hr hs)]
  · split
    swap; · exact .inl rfl
    rename_i k φ hp
    split
    swap; · exact .inl rfl
    rename_i h0
    rw [rebuild_one ho hq]
    refine StageOK.exact rfl (Merges.exact ⟨ho, t1, hq⟩ (fun q hq => .inl hq) fun ψ j => ?_)
    rw [one_pair ho hq (fun r s hr hs => pauliPair_mat h1 h2 hp hr hs), if_pos (controls_empty (o := o1) h0 j)]

/-! ## products of Pauli gates -/

theorem opOf_pauli {g : PauliGate} (hv : Valid (.pauli g)) (ψ : U64 → ℂ) :
    opOf (.pauli g) ψ = fun j => if CtrlOK (controls g.o) j then PauliAct g.p ψ j else ψ j := by
  obtain ⟨-, ht⟩ := hv
  have hts : UGate.ts (.pauli g) = g.p.targetList := by
    unfold UGate.ts UGate.operands PauliOp.targetList
    dsimp only
    rw [ht]
  unfold opOf
  rw [hts]
  exact applyMat_pauliCoef g.p g.p.coef _ ψ

theorem asPauli_ok {g : UGate} (hv : Valid g) : asPauli g = .ok none ∨ ∃ p, asPauli g = .ok (some p) ∧ g.operands.t = p.x ||| p.z ∧
    ∀ ψ, opOf g ψ = fun j => if CtrlOK (UGate.cs g) j then PauliAct p ψ j else ψ j := by
  unfold asPauli
  split
  · rename_i p
    exact .inr ⟨_, rfl, hv.2, fun ψ => opOf_pauli hv ψ⟩
  · split
    swap; · exact .inl rfl
    rename_i id hid
    right
    obtain ⟨k, o, rfl, hk⟩ := pauliId_one hid
    obtain ⟨ho, q, hq⟩ := hv
    have h64 : q < 64 := maskToVector_lt (m := o.t) (by rw [hq]; simp)
    have he : elemAt (UGate.one k o).targetQubitList 0 = .ok q := by
      show elemAt (maskToVector o.t) 0 = _
      rw [hq]; rfl
    rw [he, ok_bind]
    have hid4 : id ≠ 0 ∧ id < 4 := by rcases hk with ⟨-, rfl⟩ | ⟨-, rfl⟩ | ⟨-, rfl⟩ <;> simp
    have hpk : PairsOK ([q].zip [id]) := by
      constructor
      · simp [hid4.2]
      · simp [h64]
      · simp
    obtain ⟨p, hp⟩ := (ofLists_ok_iff [q] [id] 1).2 ⟨rfl, hpk⟩
    have hpe := (ofLists_eq hp).2
    rw [hp, ok_bind]
    refine ⟨p, rfl, ?_, ?_⟩
    · apply U64.ext; intro i _
      have ht : (UGate.one k o).operands.t.getLsbD i = true ↔ i = q := by
        rw [← mem_maskToVector]
        show i ∈ maskToVector o.t ↔ _
        rw [hq]; simp
      have hx : (p.x ||| p.z).getLsbD i = true ↔ i = q := by
        rw [hpe]
        dsimp only
        rw [BitVec.getLsbD_or, getLsbD_xMask hpk.str, getLsbD_zMask hpk.str]
        rcases hk with ⟨-, rfl⟩ | ⟨-, rfl⟩ | ⟨-, rfl⟩ <;> simp [toStr, pauliOfId, hasX, hasZ, eq_comm]
      exact Bool.eq_iff_iff.2 (ht.trans hx.symm)
    · intro ψ
      have hts : UGate.ts (.one k o) = [q] := hq
      have hmat : matOf (.one k o) = pauli1Mat (pauliOfId id) := by
        rcases hk with ⟨rfl, rfl⟩ | ⟨rfl, rfl⟩ | ⟨rfl, rfl⟩ <;> rfl
      funext j
      unfold opOf
      rw [hts, hmat, applyMat_ctrl]
      have hap := applyPaulis_eq hpk.str ψ
      have hl : applyPaulis (toStr ([q].zip [id])) ψ = applyMat [q] (pauli1Mat (pauliOfId id)) [] ψ := rfl
      rw [hl] at hap
      rw [hap]
      unfold PauliAct
      rw [hpe]
      dsimp only
      rw [one_mul]

theorem mkPauli_self {p : PauliOp} {c v : U64} (ho : OperandsOK ⟨p.x ||| p.z, c, v⟩) :
    mkPauli p (maskToVector c) (maskToVector2 c v) = .ok ⟨p, ⟨p.x ||| p.z, c, v⟩⟩ := by
  have h := mkOperands_self ho
  unfold mkOperands at h
  dsimp only at h
  obtain ⟨a, ha, h⟩ := bind_ok h
  rw [vectorToMask_maskToVector, ok_bind] at h
  obtain ⟨c', hc, h⟩ := bind_ok h
  obtain ⟨v', hv, h⟩ := bind_ok h
  unfold mkPauli
  rw [ha, ok_bind, hc, ok_bind, hv, ok_bind, h]
  rfl

theorem xor_ctrl {o : Operands} {x : U64} (hx : x &&& o.c = 0) (j : U64) : CtrlOK (controls o) (j ^^^ x) ↔ CtrlOK (controls o) j := by
  have key : ∀ p ∈ controls o, (j ^^^ x).getLsbD p.1 = j.getLsbD p.1 := by
    intro p hp
    have h1 : p.1 ∈ maskToVector o.c := mem_controls.1 ⟨p.2, hp⟩
    rw [mem_maskToVector] at h1
    have h2 := congrArg (fun m : U64 => m.getLsbD p.1) hx
    rw [BitVec.getLsbD_and, h1, Bool.and_true, show (0 : U64).getLsbD p.1 = false from BitVec.getLsbD_zero] at h2
    rw [BitVec.getLsbD_xor, h2, Bool.xor_false]
  unfold CtrlOK
  constructor <;> intro h p hp
  · rw [← key p hp]; exact h p hp
  · rw [key p hp]; exact h p hp

theorem stagePauliProduct_ok {g1 g2 : UGate} (hv1 : Valid g1) (hv2 : Valid g2)
    (hc : g1.operands.c = g2.operands.c) (hv : g1.operands.v = g2.operands.v) : StageOK (stagePauliProduct g1 g2) g1 g2 := by
  unfold stagePauliProduct
  rcases asPauli_ok hv1 with h1 | ⟨p1, h1, t1, a1⟩
  · rw [h1, ok_bind]
    rcases asPauli_ok hv2 with h2 | ⟨p2, h2, -⟩ <;> rw [h2, ok_bind] <;> exact .inl rfl
  rw [h1, ok_bind]
  rcases asPauli_ok hv2 with h2 | ⟨p2, h2, t2, a2⟩
  · rw [h2, ok_bind]; exact .inl rfl
  rw [h2, ok_bind]
  have o1 := valid_operandsOK hv1
  have o2 := valid_operandsOK hv2
  have hx : ∀ (p : PauliOp) (o : Operands), OperandsOK o → o.t = p.x ||| p.z → p.x &&& o.c = 0 ∧ p.z &&& o.c = 0 := by
    intro p o ho ht
    have hd := ho.disj
    rw [ht] at hd
    constructor <;> apply U64.ext <;> intro i _ <;>
      [skip; skip] <;>
      (have := congrArg (fun m : U64 => m.getLsbD i) hd
       simp only [BitVec.getLsbD_and, BitVec.getLsbD_or] at this ⊢
       rw [show (0 : U64).getLsbD i = false from BitVec.getLsbD_zero] at this ⊢
       revert this
       cases p.x.getLsbD i <;> cases p.z.getLsbD i <;> cases o.c.getLsbD i <;> simp)
  have x1 := hx p1 _ o1 t1
  have x2 := hx p2 _ o2 t2
  rw [← hc] at x2
  set p := p2.mul p1 with hp
  have hpx : p.x = p2.x ^^^ p1.x := rfl
  have hpz : p.z = p2.z ^^^ p1.z := rfl
  have hO : OperandsOK ⟨p.x ||| p.z, g1.operands.c, g1.operands.v⟩ := by
    constructor
    · dsimp only
      rw [hpx, hpz]
      apply U64.ext; intro i _
      have k : ∀ m : U64, m &&& g1.operands.c = 0 → (m.getLsbD i && g1.operands.c.getLsbD i) = false := by
        intro m hm
        rw [← BitVec.getLsbD_and, hm]; exact BitVec.getLsbD_zero
      have e1 := k _ x1.1
      have e2 := k _ x1.2
      have e3 := k _ x2.1
      have e4 := k _ x2.2
      rw [show (0 : U64).getLsbD i = false from BitVec.getLsbD_zero]
      simp only [BitVec.getLsbD_and, BitVec.getLsbD_or, BitVec.getLsbD_xor]
      revert e1 e2 e3 e4
      cases g1.operands.c.getLsbD i <;> simp
      intro a b c d
      simp [a, b, c, d]
    · exact o1.sub
  have hb : (GateDesc.pauli p g1.controlQubitList g1.controlValueList).build = .ok (.pauli ⟨p, ⟨p.x ||| p.z, g1.operands.c, g1.operands.v⟩⟩) := by
    unfold GateDesc.build UGate.controlQubitList UGate.controlValueList
    dsimp only
    rw [mkPauli_self hO]
    rfl
  dsimp only
  rw [hb]
  refine StageOK.exact rfl (Merges.exact ⟨hO, rfl⟩ ?_ fun ψ j => ?_)
  · intro q hq
    unfold UGate.uses at hq ⊢
    have hq : ((p.x ||| p.z) ||| g1.operands.c).getLsbD q = true := hq
    rw [t1, t2, ← hc]
    rw [hpx, hpz] at hq
    simp only [BitVec.getLsbD_or, BitVec.getLsbD_xor] at hq ⊢
    revert hq
    cases p1.x.getLsbD q <;> cases p2.x.getLsbD q <;> cases p1.z.getLsbD q <;> cases p2.z.getLsbD q <;> cases g1.operands.c.getLsbD q <;> decide
  · rw [cis_zero, one_mul, opOf_pauli ⟨hO, rfl⟩, a1, a2]
    have hcs2 : UGate.cs g2 = UGate.cs g1 := by
      unfold UGate.cs controls
      rw [hc, hv]
    have hcs3 : controls ⟨p.x ||| p.z, g1.operands.c, g1.operands.v⟩ = UGate.cs g1 := rfl
    dsimp only
    rw [hcs2, hcs3]
    by_cases hC : CtrlOK (UGate.cs g1) j
    · rw [if_pos hC, if_pos hC, hp, mul_spec]
      unfold PauliAct pauliAct
      dsimp only
      have hx' : CtrlOK (UGate.cs g1) (j ^^^ p2.x) := (xor_ctrl (o := g1.operands) x2.1 j).2 hC
      rw [if_pos hx']
    · rw [if_neg hC, if_neg hC, if_neg hC]

/-! ## global phases and swaps -/

theorem opOf_globalPhase {a : ℝ} {o : Operands} (ht : o.t = 0) (ψ : U64 → ℂ) (j : U64) :
    opOf (.globalPhase a o) ψ j = if CtrlOK (controls o) j then cis a * ψ j else ψ j := by
  have hts : UGate.ts (.globalPhase a o) = [] := by
    show maskToVector o.t = []
    rw [ht, maskToVector_zero]
  unfold opOf
  rw [hts, applyMat_ctrl]
  have hm : applyMat [] (matOf (.globalPhase a o)) [] = applyMat [] (fun r s => cis a * (matOne r s : ℂ)) [] := by
    apply applyMat_congr
    intro r s hr hs
    simp at hr hs
    subst hr hs
    simp [matOf, matOne]
  rw [hm, applyMat_scale, applyMat_one_id ⟨List.nodup_nil, by simp⟩]
  rfl

theorem stagePhase_ok {g1 g2 : UGate} (hv1 : Valid g1) (hv2 : Valid g2)
    (hc : g1.operands.c = g2.operands.c) (hv : g1.operands.v = g2.operands.v) : StageOK (stagePhase g1 g2) g1 g2 := by
  unfold stagePhase
  split
  swap; · exact .inl rfl
  rename_i a o1 b o2
  obtain ⟨ho, ht⟩ := hv1
  obtain ⟨-, ht2⟩ := hv2
  have hself := mkOperands_self ho
  rw [ht, maskToVector_zero] at hself
  have hb : (GateDesc.globalPhase (a + b) (UGate.globalPhase a o1).controlQubitList (UGate.globalPhase a o1).controlValueList).build =
      .ok (.globalPhase (a + b) o1) := by
    unfold GateDesc.build UGate.controlQubitList UGate.controlValueList UGate.operands
    dsimp only
    rw [hself]
    rfl
  rw [hb]
  refine StageOK.exact rfl (Merges.exact ⟨ho, ht⟩ (fun q hq => .inl hq) fun ψ j => ?_)
  rw [cis_zero, one_mul, opOf_globalPhase ht2, opOf_globalPhase ht, opOf_globalPhase ht]
  have hcs : controls o2 = controls o1 := by
    unfold controls
    have h1 : o1.c = o2.c := hc
    have h2 : o1.v = o2.v := hv
    rw [h1, h2]
  rw [hcs]
  split
  · rw [add_comm a b, cis_add]; ring
  · rfl

theorem stageSwap_ok {g1 g2 : UGate} (hv1 : Valid g1) (hc : g1.operands.c = g2.operands.c) (hv : g1.operands.v = g2.operands.v) :
    StageOK (stageSwap g1 g2) g1 g2 := by
  unfold stageSwap
  split
  swap; · exact .inl rfl
  rename_i o1 o2
  split
  swap; · exact .inl rfl
  rename_i ht
  have : o2 = o1 := by
    have h1 : o1.c = o2.c := hc
    have h2 : o1.v = o2.v := hv
    cases o1; cases o2; simp_all
  subst this
  refine StageOK.exact rfl (Merges.exact trivial (fun q hq => absurd hq (uses_ident q)) fun ψ j => ?_)
  rw [cis_zero, one_mul, opOf_ident]
  obtain ⟨ho, a, b, hab⟩ := id hv1
  have hts : UGate.ts (.swap o2) = [a, b] := hab
  have hT := valid_targetsOK (.swap o2)
  have hD := valid_ctrlDisj hv1
  unfold opOf
  rw [hts] at *
  rw [applyMat_inverse hT hD (U := matOf (.swap o2)) (V := matOf (.swap o2)) (fun r s hr hs => swapMat_sq hr hs)]

/-! ## all cases -/

theorem runStages_ok {g1 g2 : UGate} {ss : List (UGate → UGate → Stage)} (h : ∀ s ∈ ss, StageOK (s g1 g2) g1 g2) :
    StageOK (runStages g1 g2 ss) g1 g2 := by
  induction ss with
  | nil => exact .inl rfl
  | cons s ss ih =>
    unfold runStages
    rcases h s (by simp) with h0 | ⟨g, φ, δ, h0, hr⟩
    · rw [h0, ok_bind]
      exact ih fun s' hs' => h s' (by simp [hs'])
    · rw [h0, ok_bind]
      exact .inr ⟨g, φ, δ, rfl, hr⟩

theorem mergeStages_ok {g1 g2 : UGate} (hv1 : Valid g1) (hv2 : Valid g2)
    (hc : g1.operands.c = g2.operands.c) (hv : g1.operands.v = g2.operands.v) : StageOK (runStages g1 g2 mergeStages) g1 g2 := by
  apply runStages_ok
  unfold mergeStages
  intro s hs
  simp only [List.mem_cons, List.not_mem_nil, or_false] at hs
  rcases hs with rfl | rfl | rfl | rfl | rfl | rfl | rfl | rfl | rfl | rfl
  · exact stagePhase_ok hv1 hv2 hc hv
  · exact stagePauliPair_ok hv1 hv2 hc hv
  · exact stagePauliProduct_ok hv1 hv2 hc hv
  · exact stageFixed_ok fixedZ hv1 hv2 hc hv
  · exact stageAngle_ok famZ (fun k1 k2 a b ha hb _ _ => tinyZ k1 k2 a b ha hb) hv1 hv2 hc hv
  · exact stageFixed_ok fixedX hv1 hv2 hc hv
  · exact stageAngle_ok famX (fun _ _ _ _ ha hb h hne => absurd (tiny_none (tinyX ha) (tinyX hb) h) hne) hv1 hv2 hc hv
  · exact stageFixed_ok fixedY hv1 hv2 hc hv
  · exact stageAngle_ok famY (fun _ _ _ _ ha hb h hne => absurd (tiny_none (tinyY ha) (tinyY hb) h) hne) hv1 hv2 hc hv
  · exact stageSwap_ok hv1 hc hv

/-- not a permutation gate -/
def NotPerm (g : UGate) : Prop := ∀ p, g ≠ .perm p

theorem free_phase {g1 : UGate} {φ : ℝ}
    (h : (match g1 with | .globalPhase phase o => if o.c = 0 then some phase else none | _ => none : Option ℝ) = some φ) :
    ∃ o, g1 = .globalPhase φ o ∧ o.c = 0 := by
  split at h
  · split at h
    · cases h; exact ⟨_, rfl, by assumption⟩
    · cases h
  · cases h

theorem opOf_free {φ : ℝ} {o : Operands} (hv : Valid (.globalPhase φ o)) (h : o.c = 0) (ψ : U64 → ℂ) :
    opOf (.globalPhase φ o) ψ = fun j => cis φ * ψ j := by
  funext j
  rw [opOf_globalPhase hv.2, if_pos (controls_empty h j)]

theorem opOf_smul (g : UGate) (z : ℂ) (ψ : U64 → ℂ) : opOf g (fun j => z * ψ j) = fun j => z * opOf g ψ j := by
  unfold opOf
  exact applyMat_smul _ _ _

theorem mergeGate_ok {g1 g2 : UGate} (hv1 : Valid g1) (hv2 : Valid g2) (hp1 : NotPerm g1) (hp2 : NotPerm g2)
    (hlen : ∃ n, n < 64 ∧ ∀ q, UGate.uses g1 q ∨ UGate.uses g2 q → q < n) :
    ∃ g φ δ, mergeGate g1 g2 = .ok (g, φ) ∧ Merges g1 g2 g φ δ ∧ |δ| < 1e-12 ∧
      (δ ≠ 0 → Tiny g1 g2 δ) := by
  have fin : ∀ g φ, mergeGate g1 g2 = .ok (g, φ) → Merges g1 g2 g φ 0 → ∃ g φ δ, mergeGate g1 g2 = .ok (g, φ) ∧ Merges g1 g2 g φ δ ∧ |δ| < 1e-12 ∧
      (δ ≠ 0 → Tiny g1 g2 δ) :=
    fun g φ h hm => ⟨g, φ, 0, h, hm, by norm_num, fun h => absurd rfl h⟩
  obtain ⟨gd, hd, hdm, -⟩ := mergeDense_spec hv1 hv2 hlen
  unfold mergeGate at fin ⊢
  split
  · exact absurd rfl (hp1 _)
  · exact absurd rfl (hp2 _)
  · refine ⟨_, _, 0, rfl, Merges.exact hv2 (fun q hq => .inr hq) (fun ψ j => ?_), by norm_num, fun h => absurd rfl h⟩
    rw [opOf_ident, cis_zero, one_mul]
  · refine ⟨_, _, 0, rfl, Merges.exact hv1 (fun q hq => .inl hq) (fun ψ j => ?_), by norm_num, fun h => absurd rfl h⟩
    rw [opOf_ident, cis_zero, one_mul]
  · split
    · rename_i φ hφ
      obtain ⟨o, rfl, h0⟩ := free_phase hφ
      refine ⟨_, _, 0, rfl, Merges.exact hv2 (fun q hq => .inr hq) (fun ψ j => ?_), by norm_num, fun h => absurd rfl h⟩
      rw [opOf_free hv1 h0, opOf_smul]
    · split
      · rename_i φ hφ
        obtain ⟨o, rfl, h0⟩ := free_phase hφ
        refine ⟨_, _, 0, rfl, Merges.exact hv1 (fun q hq => .inl hq) (fun ψ j => ?_), by norm_num, fun h => absurd rfl h⟩
        rw [opOf_free hv2 h0]
      · split
        · exact ⟨gd, 0, 0, hd, hdm, by norm_num, fun h => absurd rfl h⟩
        · rename_i hcv
          push Not at hcv
          rcases mergeStages_ok hv1 hv2 hcv.1 hcv.2 with h | ⟨g, φ, δ, h, hr⟩
          · rw [h, ok_bind]
            exact ⟨gd, 0, 0, hd, hdm, by norm_num, fun h => absurd rfl h⟩
          · rw [h, ok_bind]
            exact ⟨g, φ, δ, rfl, hr⟩

end Verif.Proofs
