import Verif.Proofs.GateUpdate

/-! # The factories build valid gate objects standing for the described operator -/

namespace Verif.Proofs
open Verif Verif.Spec Verif.Model
attribute [-simp] BitVec.getLsbD_eq_getElem

/-- the only precondition that the factories do not check: a sparse matrix is a well-formed compressed square matrix
of the size given by the number of targets -/
def DescOK : GateDesc → Prop
  | .sparse ts M _ _ => SMat.OK M (2 ^ ts.length)
  | _ => True

theorem reorder_self {ts : List Nat} (h : TargetsOK ts) {x : Nat} (hx : x < 2 ^ ts.length) : reorder ts ts x = x :=
  getBits_putBits _ h hx

theorem mkDense_ok {ts cs vs : List Nat} {M : DMat ℂ} {u : Bool} {g : DenseGate} (h : mkDense ts M cs vs u = .ok g) :
    mkOperands ts cs vs = .ok g.o ∧ M.rows = 2 ^ ts.length ∧ M.cols = 2 ^ ts.length ∧
    g.mat.rows = 2 ^ ts.length ∧ g.mat.cols = 2 ^ ts.length ∧ g.isUnitary = u ∧
    ∀ r s, r < 2 ^ ts.length → s < 2 ^ ts.length →
      g.mat.entry r s = M.entry (reorder (sortQ ts) ts r) (reorder (sortQ ts) ts s) := by
  unfold mkDense at h
  obtain ⟨vals, -, h⟩ := bind_ok h
  obtain ⟨dim, hdim, h⟩ := bind_ok h
  have hd : dim.toNat = 2 ^ ts.length := by
    unfold shl1 at hdim
    split at hdim
    · rename_i hlt
      injection hdim with hdim
      rw [← hdim, toNat_one_shl hlt]
    · cases hdim
  rw [hd] at h
  split at h
  · cases h
  · rename_i hrc
    push Not at hrc
    obtain ⟨hr, hc⟩ := hrc
    split at h
    · rename_i hs
      obtain ⟨o, ho, h⟩ := bind_ok h
      cases h
      obtain ⟨tn, tl, -⟩ := mkOperands_ok ho
      refine ⟨ho, hr, hc, hr, hc, rfl, ?_⟩
      intro r s hr hs'
      rw [isSorted_sortQ hs, reorder_self ⟨tn, tl⟩ hr, reorder_self ⟨tn, tl⟩ hs']
    · obtain ⟨m, hm, h⟩ := bind_ok h
      obtain ⟨o, ho, h⟩ := bind_ok h
      cases h
      obtain ⟨tn, tl, -⟩ := mkOperands_ok ho
      rw [transformByOrder_ok ⟨tn, tl⟩ M hr hc] at hm
      cases hm
      exact ⟨ho, hr, hc, hr, hr, rfl, fun _ _ _ _ => rfl⟩

theorem mkSparse_ok {ts cs vs : List Nat} {M : SMat ℂ} (hM : SMat.OK M (2 ^ ts.length)) {g : SparseGate}
    (h : mkSparse ts M cs vs = .ok g) :
    mkOperands ts cs vs = .ok g.o ∧ ∃ m, SMat.OK m (2 ^ ts.length) ∧ g.mat = .ofSMat m ∧
    ∀ r s, r < 2 ^ ts.length → s < 2 ^ ts.length →
      m.toDense.entry r s = M.toDense.entry (reorder (sortQ ts) ts r) (reorder (sortQ ts) ts s) := by
  unfold mkSparse at h
  obtain ⟨vals, -, h⟩ := bind_ok h
  split at h
  · rename_i hs
    obtain ⟨o, ho, h⟩ := bind_ok h
    cases h
    obtain ⟨tn, tl, -⟩ := mkOperands_ok ho
    refine ⟨ho, M, hM, rfl, ?_⟩
    intro r s hr hs'
    rw [isSorted_sortQ hs, reorder_self ⟨tn, tl⟩ hr, reorder_self ⟨tn, tl⟩ hs']
  · obtain ⟨m, hm, h⟩ := bind_ok h
    obtain ⟨o, ho, h⟩ := bind_ok h
    cases h
    obtain ⟨tn, tl, -⟩ := mkOperands_ok ho
    rw [transformByOrder_ok ⟨tn, tl⟩ M.toDense hM.rows hM.cols] at hm
    cases hm
    refine ⟨ho, _, sparseView_ok _ hM.rows hM.rows, rfl, ?_⟩
    intro r s hr hs
    rw [← hM.rows] at hr hs
    exact sparseView_entry _ hr hs

/-- sets of qubits of object and description agree -/
def SameQubits (g : UGate) (d : GateDesc) : Prop :=
  (∀ q, q ∈ UGate.ts g ↔ q ∈ targetsOf d) ∧ (∀ q, (∃ b, (q, b) ∈ UGate.cs g) ↔ ∃ b, (q, b) ∈ controlsOf d)

theorem sameControls {ts cs vs : List Nat} {o : Operands} (h : mkOperands ts cs vs = .ok o) (q : Nat) :
    (∃ b, (q, b) ∈ controls o) ↔ ∃ b, (q, b) ∈ ctrlList cs vs := by
  obtain ⟨-, -, -, -, -, hl, -, -, cb, -⟩ := mkOperands_ok h
  rw [mem_controls, mem_maskToVector, cb, decide_eq_true_eq]
  constructor
  · intro hq
    obtain ⟨k, hk, rfl⟩ := List.getElem_of_mem hq
    refine ⟨_, List.mem_map.2 ⟨(cs[k], (effectiveValues cs vs)[k]'(by omega)), ?_, rfl⟩⟩
    rw [List.mem_iff_getElem]
    exact ⟨k, by simp [List.length_zip]; omega, by simp⟩
  · rintro ⟨b, hb⟩
    exact mem_ctrlList hb

theorem sameTargets {ts cs vs : List Nat} {o : Operands} (h : mkOperands ts cs vs = .ok o) (q : Nat) :
    q ∈ maskToVector o.t ↔ q ∈ ts := by
  rw [target_list h, mem_sortQ]

/-- **Factories**: what a successful factory call returns is a valid object for the described operator -/
theorem build_valid {d : GateDesc} {g : UGate} (hd : DescOK d) (h : d.build = .ok g) :
    Valid g ∧ opOf g = operatorOf d ∧ SameQubits g d := by
  unfold opOf operatorOf SameQubits
  cases d with
  | ident =>
    cases h
    refine ⟨trivial, ?_, ?_, ?_⟩
    · rw [show UGate.ts .ident = [] from maskToVector_zero,
        show UGate.cs .ident = [] from by show controls ⟨0, 0, 0⟩ = []; unfold controls; rw [maskToVector_zero]; rfl]
      rfl
    · intro q; rw [show UGate.ts .ident = [] from maskToVector_zero]; rfl
    · intro q
      rw [show UGate.cs .ident = [] from by show controls ⟨0, 0, 0⟩ = []; unfold controls; rw [maskToVector_zero]; rfl]
      rfl
  | globalPhase phase cs vs =>
    obtain ⟨o, ho, h⟩ := bind_ok h
    cases h
    have e := target_list ho
    refine ⟨⟨operandsOK_of ho, ?_⟩, ?_, sameTargets ho, sameControls ho⟩
    · obtain ⟨-, -, -, -, -, -, -, tb, -, -⟩ := mkOperands_ok ho
      apply U64.ext; intro i _; rw [tb]; simp
    · exact (applyMat_operands ho (fun _ _ => cis phase)).symm
  | one k q cs vs =>
    obtain ⟨o, ho, h⟩ := bind_ok h
    cases h
    have e : maskToVector o.t = [q] := by rw [target_list ho]; unfold sortQ; rw [List.mergeSort_singleton]
    obtain ⟨tn, tl, -⟩ := mkOperands_ok ho
    refine ⟨⟨operandsOK_of ho, q, e⟩, ?_, sameTargets ho, sameControls ho⟩
    refine Eq.trans ?_ (applyMat_operands ho _).symm
    apply applyMat_congr
    intro r s hr hs
    simp only [UGate.ts, UGate.operands, e] at hr hs ⊢
    rw [reorder_self ⟨tn, tl⟩ hr, reorder_self ⟨tn, tl⟩ hs]
    rfl
  | swap a b cs vs =>
    obtain ⟨o, ho, h⟩ := bind_ok h
    cases h
    obtain ⟨hne, ha, hb, hbits⟩ := two_bits ho
    have e := target_list ho
    have hl : (maskToVector o.t).length = 2 := by rw [e, length_sortQ]; rfl
    refine ⟨⟨operandsOK_of ho, ?_⟩, ?_, sameTargets ho, sameControls ho⟩
    · match hm : maskToVector o.t, hl with
      | [x, y], _ => exact ⟨x, y, rfl⟩
    · have hmem : ∀ i, i ∈ maskToVector o.t ↔ i = a ∨ i = b := by
        intro i; rw [sameTargets ho]; simp
      have hctrl : ∀ j, CtrlOK (ctrlList cs vs) j ↔ CtrlOK (controls o) j := fun j => by
        rw [← ctrlOK_controls (operandsOK_of ho)]; exact (ctrl_mask_iff ho j).symm
      show applyMat (maskToVector o.t) swapMat (controls o) = applyMat [a, b] swapMat (ctrlList cs vs)
      rw [applyMat_ctrl_congr hctrl]
      rcases Nat.lt_or_gt_of_ne hne with hlt | hlt
      · rw [sorted_ext (b := [a, b]) (maskToVector_sorted _) (by simp [hlt]) (by intro i; rw [hmem]; simp)]
      · rw [sorted_ext (b := [b, a]) (maskToVector_sorted _) (by simp; omega)
          (by intro i; rw [hmem, or_comm]; simp)]
        rw [swap_symm ha hb hne (U := swapMat) (fun r s _ _ => rfl)]
  | ecr c t cs vs =>
    obtain ⟨g, hg, h⟩ := bind_ok h
    cases h
    obtain ⟨ho, hbc, hbt⟩ := mkEcr_ok hg
    obtain ⟨hne, ht, hc, hbits⟩ := two_bits ho
    have hgt : g.o.t = g.pt ||| g.pc := by
      apply U64.ext; intro i _
      rw [hbits, BitVec.getLsbD_or, hbc.2, hbt.2]
    have ema : g.pc = 1#64 <<< c := U64.ext fun i _ => by rw [hbc.2, getLsbD_one_shl hc]
    have emb : g.pt = 1#64 <<< t := U64.ext fun i _ => by rw [hbt.2, getLsbD_one_shl ht]
    have hlt' : g.pc.toNat < g.pt.toNat ↔ c < t := by
      rw [ema, emb, toNat_one_shl hc, toNat_one_shl ht]
      exact Nat.pow_lt_pow_iff_right (by omega)
    have hmem : ∀ i, i ∈ maskToVector g.o.t ↔ i = c ∨ i = t := by
      intro i; rw [sameTargets ho]; simp [or_comm]
    refine ⟨⟨operandsOK_of ho, c, t, Ne.symm hne, hbc, hbt, hgt⟩, ?_, ?_, sameControls ho⟩
    · have hctrl : ∀ j, CtrlOK (ctrlList cs vs) j ↔ CtrlOK (controls g.o) j := fun j => by
        rw [← ctrlOK_controls (operandsOK_of ho)]; exact (ctrl_mask_iff ho j).symm
      show applyMat (maskToVector g.o.t) (matOf (.ecr g)) (controls g.o) = applyMat [c, t] ecrMat (ctrlList cs vs)
      rw [applyMat_ctrl_congr hctrl]
      rcases Nat.lt_or_gt_of_ne hne with hlt | hlt
      · rw [sorted_ext (b := [t, c]) (maskToVector_sorted _) (by simp [hlt]) (by intro i; rw [hmem, or_comm]; simp)]
        simp only [matOf, if_neg (fun hh => by have := hlt'.1 hh; omega : ¬ g.pc.toNat < g.pt.toNat)]
        rw [applyMat_flip2 hc ht (Ne.symm hne)]
      · rw [sorted_ext (b := [c, t]) (maskToVector_sorted _) (by simp; omega)
          (by intro i; rw [hmem]; simp)]
        simp only [matOf, if_pos (hlt'.2 hlt)]
    · intro q
      rw [show UGate.ts (.ecr g) = maskToVector g.o.t from rfl, hmem]
      simp [targetsOf]
  | perm dst =>
    obtain ⟨g, hg, h⟩ := bind_ok h
    cases h
    obtain ⟨hk, hg⟩ := mkPerm_ok hg
    have hdst : g.dst = dst := (permCtor_spec hk hg).2.1
    subst hdst
    obtain ⟨h1, h2, h3⟩ := perm_targets hk hg
    have hcs : UGate.cs (.perm g) = [] := by
      show controls g.o = []
      unfold controls
      rw [h2, maskToVector_zero]; rfl
    refine ⟨⟨hk, hg⟩, ?_, ?_, ?_⟩
    · rw [hcs, show UGate.ts (.perm g) = _ from h1]; rfl
    · intro q; rw [show UGate.ts (.perm g) = _ from h1]; rfl
    · intro q; rw [hcs]; rfl
  | dense ts M cs vs u =>
    obtain ⟨g, hg, h⟩ := bind_ok h
    cases h
    obtain ⟨ho, hr, hc, hr', hc', -, he⟩ := mkDense_ok hg
    have hl : (maskToVector g.o.t).length = ts.length := by rw [target_list ho, length_sortQ]
    refine ⟨⟨operandsOK_of ho, by rw [hl]; exact hr', by rw [hl]; exact hc'⟩, ?_, sameTargets ho, sameControls ho⟩
    refine Eq.trans ?_ (applyMat_operands ho _).symm
    apply applyMat_congr
    intro r s hr hs
    rw [show UGate.ts (.dense g) = maskToVector g.o.t from rfl, hl] at hr hs
    rw [target_list ho]
    exact he r s hr hs
  | sparse ts M cs vs =>
    obtain ⟨g, hg, h⟩ := bind_ok h
    cases h
    obtain ⟨ho, m, hm, hgm, he⟩ := mkSparse_ok hd hg
    have hl : (maskToVector g.o.t).length = ts.length := by rw [target_list ho, length_sortQ]
    refine ⟨⟨operandsOK_of ho, m, by rw [hl]; exact hm, hgm⟩, ?_, sameTargets ho, sameControls ho⟩
    refine Eq.trans ?_ (applyMat_operands ho _).symm
    apply applyMat_congr
    intro r s hr hs
    rw [show UGate.ts (.sparse g) = maskToVector g.o.t from rfl, hl] at hr hs
    rw [target_list ho, matOf_sparse hm hgm hr hs, he r s hr hs]
    exact (storedEntry_eq M _ _).symm
  | pauli p cs vs =>
    obtain ⟨g, hg, h⟩ := bind_ok h
    cases h
    obtain ⟨hp, ho⟩ := mkPauli_ok hg
    have hgt : g.o.t = p.x ||| p.z := by
      obtain ⟨-, -, -, -, -, -, -, tb, -, -⟩ := mkOperands_ok ho
      apply U64.ext; intro i _
      rw [tb, Bool.eq_iff_iff, decide_eq_true_eq, mem_targetList, BitVec.getLsbD_or, Bool.or_eq_true]
    have hctrl : ∀ j, CtrlOK (ctrlList cs vs) j ↔ CtrlOK (controls g.o) j := fun j => by
      rw [← ctrlOK_controls (operandsOK_of ho)]; exact (ctrl_mask_iff ho j).symm
    have hts : UGate.ts (.pauli g) = pauliQubits p := by
      rw [pauliQubits_eq]
      show maskToVector g.o.t = _
      rw [hgt]; rfl
    refine ⟨⟨operandsOK_of ho, by rw [hp]; exact hgt⟩, ?_, ?_, sameControls ho⟩
    · show applyMat _ _ _ = applyMat _ _ (ctrlList cs vs)
      rw [applyMat_ctrl_congr hctrl, hts]
      simp only [matOf, hp]
      rfl
    · intro q; rw [hts]; rfl
  | pauliRot p angle cs vs =>
    obtain ⟨g, hg, h⟩ := bind_ok h
    cases h
    obtain ⟨hp, ho⟩ := mkPauli_ok hg
    have hgt : g.o.t = p.x ||| p.z := by
      obtain ⟨-, -, -, -, -, -, -, tb, -, -⟩ := mkOperands_ok ho
      apply U64.ext; intro i _
      rw [tb, Bool.eq_iff_iff, decide_eq_true_eq, mem_targetList, BitVec.getLsbD_or, Bool.or_eq_true]
    have hctrl : ∀ j, CtrlOK (ctrlList cs vs) j ↔ CtrlOK (controls g.o) j := fun j => by
      rw [← ctrlOK_controls (operandsOK_of ho)]; exact (ctrl_mask_iff ho j).symm
    have hts : UGate.ts (.pauliRot g angle) = pauliQubits p := by
      rw [pauliQubits_eq]
      show maskToVector g.o.t = _
      rw [hgt]; rfl
    refine ⟨⟨operandsOK_of ho, by rw [hp]; exact hgt⟩, ?_, ?_, sameControls ho⟩
    · show applyMat _ _ _ = applyMat _ _ (ctrlList cs vs)
      rw [applyMat_ctrl_congr hctrl, hts]
      simp only [matOf, hp]
      rfl
    · intro q; rw [hts]; rfl

end Verif.Proofs
