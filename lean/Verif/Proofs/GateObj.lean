import Verif.Proofs.Gate1
import Verif.Proofs.Perm
import Verif.Proofs.Tensor
import Verif.Proofs.PauliCtor
import Verif.Spec.Desc

/-! # Gate objects: their invariant, the operator they stand for, and `update_quantum_state` -/

namespace Verif.Proofs
open Verif Verif.Spec Verif.Model
attribute [-simp] BitVec.getLsbD_eq_getElem

/-- the invariant of the three masks -/
structure OperandsOK (o : Operands) : Prop where
  disj : o.t &&& o.c = 0
  sub : ∀ i, o.v.getLsbD i = true → o.c.getLsbD i = true

/-- controls read off the masks -/
def controls (o : Operands) : List (Nat × Bool) := (maskToVector o.c).map (fun q => (q, o.v.getLsbD q))

theorem operandsOK_of {ts cs vs : List Nat} {o : Operands} (h : mkOperands ts cs vs = .ok o) : OperandsOK o := by
  obtain ⟨-, -, -, -, hd, -, -, tb, cb, vb⟩ := mkOperands_ok h
  constructor
  · apply U64.ext; intro i _
    rw [BitVec.getLsbD_and, tb, cb, show (0 : U64).getLsbD i = false from BitVec.getLsbD_zero]
    by_cases hi : i ∈ ts
    · simp [hd i hi]
    · simp [hi]
  · intro i hi
    rw [vb] at hi
    rw [cb]
    simp only [decide_eq_true_eq] at hi ⊢
    exact (List.of_mem_zip hi).1

theorem mem_maskToVector {m : U64} {i : Nat} : i ∈ maskToVector m ↔ m.getLsbD i = true := (maskToVector_spec m).1 i

theorem maskToVector_nodup (m : U64) : (maskToVector m).Nodup := (targetsOK_maskToVector m).nodup

theorem maskToVector_lt {m : U64} {i : Nat} (h : i ∈ maskToVector m) : i < 64 := (targetsOK_maskToVector m).lt i h

theorem maskToVector_zero : maskToVector 0 = [] := by unfold maskToVector; rfl

theorem effective_self (o : Operands) :
    effectiveValues (maskToVector o.c) (maskToVector2 o.c o.v) = maskToVector2 o.c o.v := by
  unfold effectiveValues
  split
  · rename_i h
    rw [List.isEmpty_iff] at h
    have : (maskToVector o.c).length = 0 := by
      have := congrArg List.length h
      simpa [maskToVector2] using this
    rw [h, this]; rfl
  · rfl

theorem value_bit (m : U64) (i : Nat) : ((m >>> i) &&& 1#64).toNat = (m.getLsbD i).toNat := shr_and_one_toNat m i

theorem zip_self (o : Operands) : (maskToVector o.c).zip (maskToVector2 o.c o.v) =
    (maskToVector o.c).map (fun i => (i, (o.v.getLsbD i).toNat)) := by
  unfold maskToVector2
  induction maskToVector o.c with
  | nil => rfl
  | cons a l ih => rw [List.map_cons, List.zip_cons_cons, List.map_cons, ih, value_bit]

theorem ctrlList_self (o : Operands) : ctrlList (maskToVector o.c) (maskToVector2 o.c o.v) = controls o := by
  unfold ctrlList controls
  rw [effective_self, zip_self, List.map_map]
  apply List.map_congr_left
  intro i _
  simp only [Function.comp_apply]
  cases o.v.getLsbD i <;> rfl

/-- masks that satisfy the invariant are the masks of their own lists -/
theorem mkOperands_self {o : Operands} (h : OperandsOK o) :
    mkOperands (maskToVector o.t) (maskToVector o.c) (maskToVector2 o.c o.v) = .ok o := by
  obtain ⟨o', ho⟩ := mkOperands_complete (ts := maskToVector o.t) (cs := maskToVector o.c) (vs := maskToVector2 o.c o.v)
    (maskToVector_nodup _) (fun _ => maskToVector_lt) (maskToVector_nodup _) (fun _ => maskToVector_lt) (by
      intro i hi hc
      rw [mem_maskToVector] at hi hc
      have := congrArg (fun m => BitVec.getLsbD m i) h.disj
      simp [BitVec.getLsbD_and, hi, hc] at this) (by rw [effective_self]; simp [maskToVector2]) (by
      intro v hv
      rw [effective_self] at hv
      simp only [maskToVector2, List.mem_map] at hv
      obtain ⟨i, -, rfl⟩ := hv
      rw [value_bit]
      cases o.v.getLsbD i <;> simp)
  obtain ⟨-, -, -, -, -, -, -, tb, cb, vb⟩ := mkOperands_ok ho
  rw [ho]
  congr 1
  have e1 : o'.t = o.t := U64.ext fun i _ => by rw [tb, Bool.eq_iff_iff, decide_eq_true_eq, mem_maskToVector]
  have e2 : o'.c = o.c := U64.ext fun i _ => by rw [cb, Bool.eq_iff_iff, decide_eq_true_eq, mem_maskToVector]
  have e3 : o'.v = o.v := U64.ext fun i _ => by
    rw [vb, effective_self, zip_self, Bool.eq_iff_iff, decide_eq_true_eq, List.mem_map]
    constructor
    · rintro ⟨k, -, hk⟩
      simp only [Prod.mk.injEq] at hk
      obtain ⟨rfl, hk⟩ := hk
      cases hb : o.v.getLsbD k
      · rw [hb] at hk; cases hk
      · rfl
    · intro hv
      exact ⟨i, mem_maskToVector.2 (h.sub i hv), by rw [hv]; rfl⟩
  cases o; cases o'; simp_all

theorem ctrlOK_controls {o : Operands} (h : OperandsOK o) (j : U64) : j &&& o.c = o.v ↔ CtrlOK (controls o) j := by
  rw [← ctrlList_self]
  exact ctrl_mask_iff (mkOperands_self h) j

theorem applyMat_ctrl_congr {ts : List Nat} {U : Nat → Nat → ℂ} {cs cs' : List (Nat × Bool)}
    (h : ∀ j, CtrlOK cs j ↔ CtrlOK cs' j) : applyMat ts U cs = applyMat ts U cs' := by
  funext ψ j
  rw [applyMat_ctrl, applyMat_ctrl _ cs']
  by_cases hc : CtrlOK cs j
  · rw [if_pos hc, if_pos ((h j).1 hc)]
  · rw [if_neg hc, if_neg (fun hh => hc ((h j).2 hh))]

/-- the operator in terms of the masks -/
theorem applyMat_operands {ts cs vs : List Nat} {o : Operands} (h : mkOperands ts cs vs = .ok o)
    (U : Nat → Nat → ℂ) : applyMat ts U (ctrlList cs vs) =
      applyMat (maskToVector o.t) (fun r s => U (reorder (maskToVector o.t) ts r) (reorder (maskToVector o.t) ts s))
        (controls o) := by
  obtain ⟨tn, tl, -⟩ := mkOperands_ok h
  rw [applyMat_ctrl_congr (cs' := controls o) (fun j => by
    rw [← ctrlOK_controls (operandsOK_of h)]; exact (ctrl_mask_iff h j).symm)]
  rw [applyMat_sortQ ⟨tn, tl⟩, target_list h]

theorem checkWithinBounds_self {o : Operands} (h : OperandsOK o) {n : Nat} (hn : n < 64) :
    checkWithinBounds o n = .ok () ↔ ∀ x, x ∈ maskToVector o.t ∨ x ∈ maskToVector o.c → x < n :=
  checkWithinBounds_ok_iff hn (mkOperands_self h)

/-! ## the invariant -/

/-- what every construction path guarantees about a gate object -/
def Valid : UGate → Prop
  | .ident => True
  | .globalPhase _ o => OperandsOK o ∧ o.t = 0
  | .one _ o => OperandsOK o ∧ ∃ q, maskToVector o.t = [q]
  | .swap o => OperandsOK o ∧ ∃ a b, maskToVector o.t = [a, b]
  | .ecr g => OperandsOK g.o ∧ ∃ a b, a ≠ b ∧ IsBit g.pc a ∧ IsBit g.pt b ∧ g.o.t = g.pt ||| g.pc
  | .perm g => g.dst.length < 64 ∧ permCtor g.dst = .ok g
  | .dense g => OperandsOK g.o ∧ g.mat.rows = 2 ^ (maskToVector g.o.t).length ∧
      g.mat.cols = 2 ^ (maskToVector g.o.t).length
  | .sparse g => OperandsOK g.o ∧ ∃ m, SMat.OK m (2 ^ (maskToVector g.o.t).length) ∧ g.mat = .ofSMat m
  | .pauli g => OperandsOK g.o ∧ g.o.t = g.p.x ||| g.p.z
  | .pauliRot g _ => OperandsOK g.o ∧ g.o.t = g.p.x ||| g.p.z

/-- the two bits of an index exchanged -/
def flip2 (r : Nat) : Nat := r / 2 + 2 * (r % 2)

/-- the matrix of an object on its targets in increasing order -/
noncomputable def matOf : UGate → Nat → Nat → ℂ
  | .ident => matOne
  | .globalPhase phase _ => fun _ _ => cis phase
  | .one k _ => gate1Mat k
  | .swap _ => swapMat
  | .ecr g => if g.pc.toNat < g.pt.toNat then ecrMat else fun r s => ecrMat (flip2 r) (flip2 s)
  | .perm g => permMat g.dst
  | .dense g => g.mat.entry
  | .sparse g => match g.mat.toExternal with
    | .ok M => M.entry
    | .error _ => fun _ _ => 0
  | .pauli g => fun r s => g.p.coef * pauliMat g.p r s
  | .pauliRot g angle => fun r s =>
      Complex.cos (angle * g.p.coef / 2) * matOne r s - Complex.I * Complex.sin (angle * g.p.coef / 2) * pauliMat g.p r s

/-- target qubits of the object in increasing order (`target_qubit_list()`) -/
def UGate.ts (g : UGate) : List Nat := maskToVector g.operands.t

/-- controls of the object -/
def UGate.cs (g : UGate) : List (Nat × Bool) := controls g.operands

/-- the operator of an object -/
noncomputable def opOf (g : UGate) : (U64 → ℂ) → U64 → ℂ := applyMat (UGate.ts g) (matOf g) (UGate.cs g)

end Verif.Proofs
