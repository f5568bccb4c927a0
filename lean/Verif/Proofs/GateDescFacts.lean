import Verif.Proofs.GateBounds

/-! # Facts about gates in terms of the arguments of their factory functions -/

namespace Verif.Proofs
open Verif Verif.Spec Verif.Model
attribute [-simp] BitVec.getLsbD_eq_getElem

theorem build_bounds {d : GateDesc} {g : UGate} (hs : SameQubits g d) {n : Nat} (hq : ∀ q ∈ qubitsOf d, q < n) :
    (∀ q ∈ UGate.ts g, q < n) ∧ ∀ p ∈ UGate.cs g, p.1 < n := by
  constructor
  · intro q h
    exact hq q (List.mem_append_left _ ((hs.1 q).1 h))
  · intro p hp
    obtain ⟨b, hb⟩ := (hs.2 p.1).1 ⟨p.2, hp⟩
    exact hq p.1 (List.mem_append_right _ (List.mem_map.2 ⟨_, hb, rfl⟩))

/-- updates perform the described operator -/
theorem build_update {d : GateDesc} {g : UGate} (hd : DescOK d) (h : d.build = .ok g) {L B n : Nat}
    (hL : LanesOK L) (hn : n < 64) (hsize : B * 2 ^ n ≤ 2 ^ 64) (hq : ∀ q ∈ qubitsOf d, q < n) :
    ∃ dev, g.update L B n = .ok dev ∧ ∀ ψ, DRuns (B * 2 ^ n) dev ψ (onState (B * 2 ^ n) (operatorOf d) ψ) := by
  obtain ⟨hv, ho, hs⟩ := build_valid hd h
  obtain ⟨h1, h2⟩ := build_bounds hs hq
  rw [← ho]
  exact update_valid hv hL hn hsize h1 h2

theorem opOf_local {g : UGate} {B n : Nat} (ht : ∀ q ∈ UGate.ts g, q < n) (φ φ' : U64 → ℂ)
    (h : ∀ j : U64, j.toNat < B * 2 ^ n → φ j = φ' j) (j : U64) (hj : j.toNat < B * 2 ^ n) : opOf g φ j = opOf g φ' j :=
  applyMat_local (valid_targetsOK g).lt ht (matOf g) φ φ' h j hj

/-- reordering the targets keeps a matrix unitary -/
theorem unitary_reorder {ts ts' : List Nat} (h : TargetsOK ts) (h' : TargetsOK ts') (hp : ∀ q, q ∈ ts ↔ q ∈ ts')
    {U N : Nat → Nat → ℂ}
    (hU : ∀ r s, r < 2 ^ ts.length → s < 2 ^ ts.length → matMul ts.length (matDag U) U r s = matOne r s)
    (hN : ∀ r s, r < 2 ^ ts'.length → s < 2 ^ ts'.length → N r s = U (reorder ts' ts r) (reorder ts' ts s))
    {r s : Nat} (hr : r < 2 ^ ts'.length) (hs : s < 2 ^ ts'.length) :
    matMul ts'.length (matDag N) N r s = matOne r s := by
  have hlt : ∀ x, reorder ts' ts x < 2 ^ ts.length := fun x => getBits_lt _ _
  have hlt' : ∀ x, reorder ts ts' x < 2 ^ ts'.length := fun x => getBits_lt _ _
  have h1 : matMul ts'.length (matDag N) N r s = matMul ts.length (matDag U) U (reorder ts' ts r) (reorder ts' ts s) := by
    unfold matMul
    refine Finset.sum_nbij' (reorder ts' ts) (reorder ts ts') ?_ ?_ ?_ ?_ ?_
    · intro x _; rw [Finset.mem_range]; exact hlt x
    · intro x _; rw [Finset.mem_range]; exact hlt' x
    · intro x hx; exact reorder_reorder h' h (fun q => (hp q).symm) (Finset.mem_range.1 hx)
    · intro x hx; exact reorder_reorder h h' hp (Finset.mem_range.1 hx)
    · intro x hx
      simp only [matDag]
      rw [hN x r (Finset.mem_range.1 hx) hr, hN x s (Finset.mem_range.1 hx) hs]
  rw [h1, hU _ _ (hlt r) (hlt s)]
  unfold matOne
  by_cases e : r = s
  · rw [if_pos e, if_pos (by rw [e])]
  · rw [if_neg e, if_neg]
    intro h2
    apply e
    rw [← reorder_reorder h' h (fun q => (hp q).symm) hr, h2, reorder_reorder h' h (fun q => (hp q).symm) hs]

/-- a matrix on `k` qubits is unitary -/
def IsUnitary (k : Nat) (U : Nat → Nat → ℂ) : Prop :=
  ∀ r s, r < 2 ^ k → s < 2 ^ k → matMul k (matDag U) U r s = matOne r s

/-- gates that are unitary by their kind, or because the caller's data are -/
def UnitaryDesc : GateDesc → Prop
  | .one k _ _ _ => k ≠ .P0 ∧ k ≠ .P1
  | .dense ts M _ _ _ => IsUnitary ts.length M.entry
  | .sparse ts M _ _ => IsUnitary ts.length (storedEntry M)
  | .pauli p _ _ => (starRingEnd ℂ) p.coef * p.coef = 1
  | .pauliRot p _ _ _ => p.coef.im = 0
  | _ => True

theorem unitaryHyp_of {d : GateDesc} {g : UGate} (hd : DescOK d) (h : d.build = .ok g) (hu : UnitaryDesc d) :
    UnitaryHyp g := by
  cases d with
  | ident => cases h; trivial
  | globalPhase phase cs vs => obtain ⟨o, ho, h⟩ := bind_ok h; cases h; trivial
  | one k q cs vs => obtain ⟨o, ho, h⟩ := bind_ok h; cases h; exact hu
  | swap a b cs vs => obtain ⟨o, ho, h⟩ := bind_ok h; cases h; trivial
  | ecr c t cs vs => obtain ⟨o, ho, h⟩ := bind_ok h; cases h; trivial
  | perm dst => obtain ⟨o, ho, h⟩ := bind_ok h; cases h; trivial
  | dense ts M cs vs u =>
    obtain ⟨g, hg, h⟩ := bind_ok h
    cases h
    obtain ⟨ho, hr, hc, hr', hc', -, he⟩ := mkDense_ok hg
    obtain ⟨tn, tl, -⟩ := mkOperands_ok ho
    intro r s hr hs
    rw [target_list ho] at hr hs ⊢
    have hl := length_sortQ ts
    refine unitary_reorder (ts := ts) ⟨tn, tl⟩ ⟨(sortQ_perm ts).nodup_iff.2 tn, fun q hq => tl q (mem_sortQ.1 hq)⟩
      (fun q => mem_sortQ.symm) hu ?_ hr hs
    intro r s hr hs
    rw [hl] at hr hs
    exact he r s hr hs
  | sparse ts M cs vs =>
    obtain ⟨g, hg, h⟩ := bind_ok h
    cases h
    obtain ⟨ho, m, hm, hgm, he⟩ := mkSparse_ok hd hg
    obtain ⟨tn, tl, -⟩ := mkOperands_ok ho
    have hl := length_sortQ ts
    have hl2 : (maskToVector g.o.t).length = ts.length := by rw [target_list ho, hl]
    intro r s hr hs
    rw [target_list ho] at hr hs ⊢
    refine unitary_reorder (ts := ts) ⟨tn, tl⟩ ⟨(sortQ_perm ts).nodup_iff.2 tn, fun q hq => tl q (mem_sortQ.1 hq)⟩
      (fun q => mem_sortQ.symm) hu ?_ hr hs
    intro r s hr hs
    rw [hl] at hr hs
    rw [matOf_sparse hm hgm hr hs, he r s hr hs]
    exact (storedEntry_eq M _ _).symm
  | pauli p cs vs =>
    obtain ⟨g, hg, h⟩ := bind_ok h
    cases h
    show (starRingEnd ℂ) g.p.coef * g.p.coef = 1
    rw [(mkPauli_ok hg).1]; exact hu
  | pauliRot p angle cs vs =>
    obtain ⟨g, hg, h⟩ := bind_ok h
    cases h
    show g.p.coef.im = 0
    rw [(mkPauli_ok hg).1]; exact hu

/-- what the caller has to guarantee for `get_inverse`: a dense matrix flagged unitary is unitary, the coefficient
of a Pauli gate squares to one -/
def InverseDesc : GateDesc → Prop
  | .dense ts M _ _ u => u = true → IsUnitary ts.length M.entry
  | .pauli p _ _ => p.coef * p.coef = 1
  | _ => True

theorem inverseHyp_of {d : GateDesc} {g : UGate} (hd : DescOK d) (h : d.build = .ok g) (hu : InverseDesc d) :
    InverseHyp g := by
  cases d with
  | ident => cases h; trivial
  | globalPhase phase cs vs => obtain ⟨o, ho, h⟩ := bind_ok h; cases h; trivial
  | one k q cs vs => obtain ⟨o, ho, h⟩ := bind_ok h; cases h; trivial
  | swap a b cs vs => obtain ⟨o, ho, h⟩ := bind_ok h; cases h; trivial
  | ecr c t cs vs => obtain ⟨o, ho, h⟩ := bind_ok h; cases h; trivial
  | perm dst => obtain ⟨o, ho, h⟩ := bind_ok h; cases h; trivial
  | dense ts M cs vs u =>
    have h0 := h
    obtain ⟨g, hg, h⟩ := bind_ok h
    cases h
    obtain ⟨-, -, -, -, -, hu', -⟩ := mkDense_ok hg
    intro hf
    rw [hu'] at hf
    exact unitaryHyp_of (d := .dense ts M cs vs u) hd h0 (hu hf)
  | sparse ts M cs vs => obtain ⟨o, ho, h⟩ := bind_ok h; cases h; trivial
  | pauli p cs vs =>
    obtain ⟨g, hg, h⟩ := bind_ok h
    cases h
    show g.p.coef * g.p.coef = 1
    rw [(mkPauli_ok hg).1]; exact hu
  | pauliRot p angle cs vs => obtain ⟨o, ho, h⟩ := bind_ok h; cases h; trivial

/-! ## slots of a batch -/

/-- the index of amplitude `j` of slot `b` in a batch of states of `n` qubits -/
def slotIndex (n b : Nat) (j : U64) : U64 := BitVec.ofNat 64 (b * 2 ^ n + j.toNat)

/-- state `b` of a batch -/
def slot {R : Type} (n b : Nat) (ψ : U64 → R) : U64 → R := fun j => ψ (slotIndex n b j)

theorem slotIndex_toNat {B n b : Nat} {j : U64} (hB : B * 2 ^ n ≤ 2 ^ 64) (hb : b < B) (hj : j.toNat < 2 ^ n) :
    (slotIndex n b j).toNat = b * 2 ^ n + j.toNat := by
  unfold slotIndex
  rw [BitVec.toNat_ofNat]
  apply Nat.mod_eq_of_lt
  have : (b + 1) * 2 ^ n ≤ B * 2 ^ n := Nat.mul_le_mul_right _ hb
  rw [Nat.add_mul, Nat.one_mul] at this
  omega

theorem slotIndex_lt {B n b : Nat} {j : U64} (hB : B * 2 ^ n ≤ 2 ^ 64) (hb : b < B) (hj : j.toNat < 2 ^ n) :
    (slotIndex n b j).toNat < B * 2 ^ n := by
  rw [slotIndex_toNat hB hb hj]
  have : (b + 1) * 2 ^ n ≤ B * 2 ^ n := Nat.mul_le_mul_right _ hb
  rw [Nat.add_mul, Nat.one_mul] at this
  omega

theorem slotIndex_low {B n b : Nat} {j : U64} (hB : B * 2 ^ n ≤ 2 ^ 64) (hb : b < B) (hj : j.toNat < 2 ^ n) {i : Nat}
    (hi : i < n) : (slotIndex n b j).getLsbD i = j.getLsbD i := by
  rw [← BitVec.testBit_toNat, ← BitVec.testBit_toNat, slotIndex_toNat hB hb hj, Nat.mul_comm,
    Nat.testBit_two_pow_mul_add b hj, if_pos hi]

theorem slotIndex_high {B n b : Nat} {j : U64} (hB : B * 2 ^ n ≤ 2 ^ 64) (hb : b < B) (hj : j.toNat < 2 ^ n) {i : Nat}
    (hi : n ≤ i) : (slotIndex n b j).getLsbD i = b.testBit (i - n) := by
  rw [← BitVec.testBit_toNat, slotIndex_toNat hB hb hj, Nat.mul_comm,
    Nat.testBit_two_pow_mul_add b hj, if_neg (by omega)]

/-- an operator on qubits below `n` acts on every slot on its own -/
theorem applyMat_slot {R : Type} [AddCommMonoid R] [Mul R] {ts : List Nat} {cs : List (Nat × Bool)} {B n b : Nat}
    (hB : B * 2 ^ n ≤ 2 ^ 64) (hb : b < B) (hT : TargetsOK ts) (ht : ∀ q ∈ ts, q < n) (hc : ∀ p ∈ cs, p.1 < n)
    (U : Nat → Nat → R) (ψ : U64 → R) {j : U64} (hj : j.toNat < 2 ^ n) :
    slot n b (applyMat ts U cs ψ) j = applyMat ts U cs (slot n b ψ) j := by
  have hctrl : CtrlOK cs (slotIndex n b j) ↔ CtrlOK cs j := by
    unfold CtrlOK
    constructor <;> intro h p hp
    · rw [← h p hp, slotIndex_low hB hb hj (hc p hp)]
    · rw [← h p hp, slotIndex_low hB hb hj (hc p hp)]
  have hget : getBits (slotIndex n b j) ts = getBits j ts :=
    getBits_congr fun q hq => slotIndex_low hB hb hj (ht q hq)
  have hput : ∀ x, putBits (slotIndex n b j) ts x = slotIndex n b (putBits j ts x) := by
    intro x
    have hj' : (putBits j ts x).toNat < 2 ^ n := by
      have := (putBits_inState (B := 1) hT.lt ht j x).2 (by omega)
      omega
    apply U64.ext
    intro i _
    by_cases hi : i ∈ ts
    · have hin := ht i hi
      rw [slotIndex_low hB hb hj' hin]
      obtain ⟨k, hk, rfl⟩ := List.getElem_of_mem hi
      rw [getLsbD_putBits_get _ hT.nodup hT.lt _ hk, getLsbD_putBits_get _ hT.nodup hT.lt _ hk]
    · rw [getLsbD_putBits_notMem _ hT.lt _ hi]
      by_cases hin : i < n
      · rw [slotIndex_low hB hb hj hin, slotIndex_low hB hb hj' hin, getLsbD_putBits_notMem _ hT.lt _ hi]
      · rw [slotIndex_high hB hb hj (by omega), slotIndex_high hB hb hj' (by omega)]
  unfold slot applyMat
  by_cases h : CtrlOK cs j
  · rw [if_pos (hctrl.2 h), if_pos h, hget]
    apply Finset.sum_congr rfl
    intro x _
    rw [hput]
  · rw [if_neg (fun x => h (hctrl.1 x)), if_neg h]

theorem onState_slot {B n b : Nat} {g : UGate} (hB : B * 2 ^ n ≤ 2 ^ 64) (hb : b < B)
    (ht : ∀ q ∈ UGate.ts g, q < n) (hc : ∀ p ∈ UGate.cs g, p.1 < n) (ψ : U64 → ℂ) {j : U64} (hj : j.toNat < 2 ^ n) :
    slot n b (onState (B * 2 ^ n) (opOf g) ψ) j = onState (1 * 2 ^ n) (opOf g) (slot n b ψ) j := by
  have h1 : slot n b (onState (B * 2 ^ n) (opOf g) ψ) j = slot n b (opOf g ψ) j := by
    unfold slot onState
    rw [if_pos (slotIndex_lt hB hb hj)]
  have h2 : onState (1 * 2 ^ n) (opOf g) (slot n b ψ) j = opOf g (slot n b ψ) j := by
    unfold onState
    rw [if_pos (by omega)]
  rw [h1, h2]
  exact applyMat_slot hB hb (valid_targetsOK g) ht hc _ ψ hj

/-! ## operand lists -/

theorem vectorToMask_throws {l : List Nat} {e : Fault} (h : vectorToMask l = .error e) : ∃ msg, e = .throw msg := by
  have key : ∀ (l : List Nat) (m : U64) (e : Fault), l.foldlM vectorToMaskStep m = .error e → ∃ msg, e = .throw msg := by
    intro l
    induction l with
    | nil => intro m e h; cases h
    | cons x xs ih =>
      intro m e h
      rw [List.foldlM_cons] at h
      cases hs : vectorToMaskStep m x with
      | ok m' => rw [hs] at h; exact ih m' e h
      | error e' =>
        rw [hs] at h
        obtain rfl : e' = e := by injection h
        unfold vectorToMaskStep at hs
        split at hs
        · cases hs; exact ⟨_, rfl⟩
        · split at hs
          · cases hs; exact ⟨_, rfl⟩
          · rename_i hx _
            unfold shl1 at hs
            rw [if_pos (by omega)] at hs
            cases hs
  exact key l 0 e h

theorem vectorToMask2_throws {is vs : List Nat} {m : U64} {e : Fault} (hlt : ∀ x ∈ is, x < 64)
    (hl : is.length = vs.length) (h : vectorToMask2 is vs m = .error e) : ∃ msg, e = .throw msg := by
  induction is generalizing vs m with
  | nil => cases h
  | cons x xs ih =>
    cases vs with
    | nil => simp at hl
    | cons v vs =>
      have hx := hlt x (by simp)
      have hxs : ∀ y ∈ xs, y < 64 := fun y hy => hlt y (by simp [hy])
      have hl' : xs.length = vs.length := by simpa using hl
      unfold vectorToMask2 at h
      split at h
      · rw [show shl1 x = .ok (1#64 <<< x) from by unfold shl1; rw [if_pos hx], ok_bind] at h
        exact ih hxs hl' h
      · split at h
        · cases h; exact ⟨_, rfl⟩
        · exact ih hxs hl' h

/-- operand validation fails with an exception, never with undefined behaviour -/
theorem mkOperands_throws {ts cs vs : List Nat} {e : Fault} (h : mkOperands ts cs vs = .error e) :
    ∃ msg, e = .throw msg := by
  unfold mkOperands at h
  cases h0 : resizeAndCheckControlValues cs vs with
  | error e' =>
    rw [h0] at h
    obtain rfl : e' = e := by injection h
    unfold resizeAndCheckControlValues at h0
    dsimp only at h0
    generalize (if vs.isEmpty then List.replicate cs.length 1 else vs) = w at h0
    split at h0
    · cases h0; exact ⟨_, rfl⟩
    · cases h0
  | ok vals =>
    have hl : cs.length = vals.length := by
      unfold resizeAndCheckControlValues at h0
      dsimp only at h0
      generalize (if vs.isEmpty then List.replicate cs.length 1 else vs) = w at h0
      split at h0
      · cases h0
      · rename_i hh; cases h0; push Not at hh; exact hh
    rw [h0, ok_bind] at h
    cases h1 : vectorToMask ts with
    | error e' =>
      rw [h1] at h
      obtain rfl : e' = e := by injection h
      exact vectorToMask_throws h1
    | ok t =>
      rw [h1, ok_bind] at h
      cases h2 : vectorToMask cs with
      | error e' =>
        rw [h2] at h
        obtain rfl : e' = e := by injection h
        exact vectorToMask_throws h2
      | ok c =>
        rw [h2, ok_bind] at h
        have hlt := ((vectorToMask_ok_iff cs).1 ⟨c, h2⟩).2
        cases h3 : vectorToMask2 cs vals 0 with
        | error e' =>
          rw [h3] at h
          obtain rfl : e' = e := by injection h
          exact vectorToMask2_throws hlt hl h3
        | ok v =>
          rw [h3, ok_bind] at h
          unfold gateBase at h
          split at h
          · cases h; exact ⟨_, rfl⟩
          · cases h

/-- the control arguments of a factory call -/
def controlArgs : GateDesc → List Nat × List Nat
  | .ident => ([], [])
  | .globalPhase _ cs vs => (cs, vs)
  | .one _ _ cs vs => (cs, vs)
  | .swap _ _ cs vs => (cs, vs)
  | .ecr _ _ cs vs => (cs, vs)
  | .perm _ => ([], [])
  | .dense _ _ cs vs _ => (cs, vs)
  | .sparse _ _ cs vs => (cs, vs)
  | .pauli _ cs vs => (cs, vs)
  | .pauliRot _ _ cs vs => (cs, vs)

theorem pauli_targetList (p : PauliOp) : p.targetList = pauliQubits p := by
  apply sorted_ext (maskToVector_spec _).2
  · exact (List.pairwise_lt_range).filter _
  · intro i
    rw [(maskToVector_spec _).1, BitVec.getLsbD_or]
    unfold pauliQubits
    rw [List.mem_filter, List.mem_range]
    constructor
    · intro h
      refine ⟨?_, h⟩
      by_contra hge
      rw [BitVec.getLsbD_of_ge _ _ (by omega), BitVec.getLsbD_of_ge _ _ (by omega)] at h
      cases h
    · exact fun h => h.2

/-- every built object carries the masks of its argument lists -/
theorem build_operands {d : GateDesc} {g : UGate} (h : d.build = .ok g) :
    ∃ ts, mkOperands ts (controlArgs d).1 (controlArgs d).2 = .ok g.operands ∧ ts.Perm (targetsOf d) := by
  cases d with
  | ident => cases h; exact ⟨[], rfl, List.Perm.refl _⟩
  | globalPhase phase cs vs => obtain ⟨o, ho, h⟩ := bind_ok h; cases h; exact ⟨[], ho, List.Perm.refl _⟩
  | one k q cs vs => obtain ⟨o, ho, h⟩ := bind_ok h; cases h; exact ⟨[q], ho, List.Perm.refl _⟩
  | swap a b cs vs => obtain ⟨o, ho, h⟩ := bind_ok h; cases h; exact ⟨[a, b], ho, List.Perm.refl _⟩
  | ecr c t cs vs =>
    obtain ⟨o, ho, h⟩ := bind_ok h; cases h; exact ⟨[t, c], (mkEcr_ok ho).1, List.Perm.swap _ _ _⟩
  | perm dst =>
    obtain ⟨g, ho, h⟩ := bind_ok h
    cases h
    obtain ⟨hk, hg⟩ := mkPerm_ok ho
    obtain ⟨hd, -, -, -, hm⟩ := permCtor_spec hk hg
    refine ⟨dst, hm, (List.perm_ext_iff_of_nodup hd.nodup List.nodup_range).2 fun q => ?_⟩
    show q ∈ dst ↔ q ∈ List.range dst.length
    rw [List.mem_range]
    constructor
    · exact hd.lt q
    · intro hq
      obtain ⟨m, hm, rfl⟩ := isPerm_mem hd hq
      exact List.getElem_mem hm
  | dense ts M cs vs u => obtain ⟨g, hg, h⟩ := bind_ok h; cases h; exact ⟨ts, (mkDense_ok hg).1, List.Perm.refl _⟩
  | sparse ts M cs vs =>
    obtain ⟨g, hg, h⟩ := bind_ok h
    cases h
    refine ⟨ts, ?_, List.Perm.refl _⟩
    unfold mkSparse at hg
    obtain ⟨vals, -, hg⟩ := bind_ok hg
    split at hg
    · obtain ⟨o, ho, hg⟩ := bind_ok hg; cases hg; exact ho
    · obtain ⟨m, -, hg⟩ := bind_ok hg
      obtain ⟨o, ho, hg⟩ := bind_ok hg; cases hg; exact ho
  | pauli p cs vs =>
    obtain ⟨g, hg, h⟩ := bind_ok h
    cases h
    exact ⟨_, (mkPauli_ok hg).2, by rw [pauli_targetList]; exact List.Perm.refl _⟩
  | pauliRot p angle cs vs =>
    obtain ⟨g, hg, h⟩ := bind_ok h
    cases h
    exact ⟨_, (mkPauli_ok hg).2, by rw [pauli_targetList]; exact List.Perm.refl _⟩

end Verif.Proofs
