import Verif.Props.Gates
import Verif.Proofs.PauliBatch
import Verif.Proofs.PauliText

/-! # C11, C12, C18-C25: Pauli operators

`pauliOperator p` (Spec/Desc) is the coefficient times the product of the one-qubit Pauli matrices of the letters of
`p` on all qubits. -/

namespace Verif.Props
open Verif Verif.Spec Verif.Model Verif.Proofs
attribute [-simp] BitVec.getLsbD_eq_getElem

theorem pauliOperator_eq (p : PauliOp) (ψ : U64 → ℂ) : pauliOperator p ψ = PauliAct p ψ := by
  funext j
  unfold pauliOperator PauliAct
  rw [show ((List.range 64).map fun q => (q, letterAt p q)) = lettersOf p.x p.z from
    List.map_congr_left fun q _ => by rw [letterAt_eq], applyPaulis_lettersOf]

/-- all qubits of the Pauli operator are below `n` -/
def PauliFits (p : PauliOp) (n : Nat) : Prop := ∀ q ∈ pauliQubits p, q < n

theorem fits_masks {p : PauliOp} {n : Nat} (h : PauliFits p n) : p.x.toNat < 2 ^ n ∧ p.z.toNat < 2 ^ n := by
  have key : ∀ i, n ≤ i → (p.x.getLsbD i || p.z.getLsbD i) = false := by
    intro i hi
    by_contra hh
    have hh : (p.x.getLsbD i || p.z.getLsbD i) = true := Bool.eq_true_of_not_eq_false hh
    have hi64 : i < 64 := by
      by_contra hge
      rw [BitVec.getLsbD_of_ge _ _ (by omega), BitVec.getLsbD_of_ge _ _ (by omega)] at hh
      cases hh
    have := h i (List.mem_filter.2 ⟨List.mem_range.2 hi64, hh⟩)
    omega
  constructor <;> rw [toNat_lt_two_pow_iff] <;> intro i hi <;> have := key i hi <;>
    simp only [Bool.or_eq_false_iff] at this
  · exact this.1
  · exact this.2

/-- X₀Y₃Z₅ with coefficient 2+i -/
noncomputable def sampleP : PauliOp := ⟨2 + Complex.I, 0b001001, 0b101000⟩

theorem sampleP_qubits : pauliQubits sampleP = [0, 3, 5] := by
  simp only [pauliQubits, sampleP]; decide

theorem sampleP_fits : PauliFits sampleP 6 := by
  unfold PauliFits; rw [sampleP_qubits]; simp

/-! ## C11 -/

/-- **C11 (gate).** A Pauli gate applies the operator where the controls hold. -/
theorem C11_pauli_gate {p : PauliOp} {cs vs : List Nat} {g : UGate} (h : (GateDesc.pauli p cs vs).build = .ok g)
    {L B n : Nat} (hf : Fits L B n) (hp : PauliFits p n) (hc : ∀ c ∈ cs, c < n) :
    Performs g L B n (fun ψ j => if CtrlOK (ctrlList cs vs) j then pauliOperator p ψ j else ψ j) := by
  obtain ⟨pg, hg, h⟩ := bind_ok h
  cases h
  obtain ⟨hgp, ho⟩ := mkPauli_ok hg
  have hb : ∀ q, q ∈ p.targetList ∨ q ∈ cs → q < n := by
    rintro q (h | h)
    · rw [pauli_targetList] at h; exact hp q h
    · exact hc q h
  have hF := pauli_flipOK ho hb hf.size
  have e : (fun (ψ : U64 → ℂ) j => if CtrlOK (ctrlList cs vs) j then pauliOperator p ψ j else ψ j) =
      fun ψ j => if CtrlOK (ctrlList cs vs) j then p.coef * pauliAct p.x p.z ψ j else ψ j := by
    funext ψ j; rw [pauliOperator_eq]; rfl
  rw [e]
  refine ⟨_, rfl, fun ψ => ?_⟩
  have := applyPauli_runs hF p.z p.coef _ (ctrl_mask_iff ho) ψ
  simp only [hgp]
  exact this

/-- **C11 (operator).** `PauliOperator::apply_to_state` applies the operator. -/
theorem C11_apply_to_state {p : PauliOp} {B n : Nat} (hsize : B * 2 ^ n ≤ 2 ^ 64) (hp : PauliFits p n) (ψ : U64 → ℂ) :
    DRuns (B * 2 ^ n) (p.applyToState (B * 2 ^ n)) ψ (onState (B * 2 ^ n) (pauliOperator p) ψ) := by
  obtain ⟨hx, -⟩ := fits_masks hp
  have hF : FlipOK B n 0 0 p.x := ⟨hsize, by simp, hx, by intro i; simp, by intro i; simp⟩
  have := applyPauli_runs hF p.z p.coef [] (fun j => by simp [CtrlOK]) ψ
  have e : pauliOperator p = fun ψ j => if CtrlOK [] j then p.coef * pauliAct p.x p.z ψ j else ψ j := by
    funext ψ j; rw [pauliOperator_eq, if_pos (by simp [CtrlOK])]; rfl
  rw [e]
  exact this

/-- the operator at one index: the flipped amplitude with the product of the phases of the letters -/
theorem C11_explicit (p : PauliOp) (ψ : U64 → ℂ) (j : U64) :
    ∃ k : ℕ, pauliOperator p ψ j = p.coef * (Complex.I ^ k * ψ (j ^^^ p.x)) := by
  refine ⟨(pauliExp p.x p.z j % 4).toNat, ?_⟩
  rw [pauliOperator_eq]
  show p.coef * (Complex.I ^ pauliExp p.x p.z j * ψ (j ^^^ p.x)) = _
  rw [← zpow_natCast, Int.toNat_of_nonneg (Int.emod_nonneg _ (by norm_num)),
    I_zpow_congr (Int.mod_modEq (pauliExp p.x p.z j) 4)]

theorem build_pauli {p : PauliOp} {cs vs : List Nat} {o : Operands} (h : mkOperands p.targetList cs vs = .ok o) :
    ∃ g, mkPauli p cs vs = .ok g := by
  unfold mkOperands at h
  obtain ⟨a, ha, h⟩ := bind_ok h
  obtain ⟨t, ht, h⟩ := bind_ok h
  obtain ⟨c, hc, h⟩ := bind_ok h
  obtain ⟨v, hv, h⟩ := bind_ok h
  unfold PauliOp.targetList at ht
  rw [vectorToMask_maskToVector] at ht
  cases ht
  exact ⟨_, by simp only [mkPauli, ha, hc, hv, h, ok_bind]; rfl⟩

example : (∃ g, (GateDesc.pauli sampleP [2] [0]).build = .ok g) ∧ (∃ g, (GateDesc.pauliRot sampleP 1 [2] [0]).build = .ok g) ∧
    PauliFits sampleP 6 ∧ (∀ c ∈ [2], c < 6) ∧ Fits 0 2 6 := by
  obtain ⟨o, ho⟩ := operands_exist (ts := sampleP.targetList) (cs := [2]) (vs := [0])
    (by rw [pauli_targetList, sampleP_qubits]; simp) (by rw [pauli_targetList, sampleP_qubits]; simp) (by simp) (by simp)
    (by rw [pauli_targetList, sampleP_qubits]; simp) (by simp [effectiveValues]) (by simp [effectiveValues])
  obtain ⟨g, hg⟩ := build_pauli ho
  exact ⟨⟨.pauli g, by simp only [GateDesc.build, hg, ok_bind]; rfl⟩,
    ⟨.pauliRot g 1, by simp only [GateDesc.build, hg, ok_bind]; rfl⟩, sampleP_fits, by simp,
    ⟨Or.inl rfl, by norm_num, by norm_num⟩⟩

/-! ## C12 -/

/-- **C12.** A Pauli rotation acts as `cos(θ/2) - i sin(θ/2) P` with `θ = angle · coef` (`P` without coefficient) where
the controls hold. -/
theorem C12_pauli_rotation {p : PauliOp} {angle : ℝ} {cs vs : List Nat} {g : UGate}
    (h : (GateDesc.pauliRot p angle cs vs).build = .ok g) {L B n : Nat} (hf : Fits L B n) (hp : PauliFits p n)
    (hc : ∀ c ∈ cs, c < n) :
    Performs g L B n (fun ψ j => if CtrlOK (ctrlList cs vs) j then
      Complex.cos (angle * p.coef / 2) * ψ j - Complex.I * Complex.sin (angle * p.coef / 2) * pauliOperator ⟨1, p.x, p.z⟩ ψ j
      else ψ j) := by
  obtain ⟨pg, hg, h⟩ := bind_ok h
  cases h
  obtain ⟨hgp, ho⟩ := mkPauli_ok hg
  have hb : ∀ q, q ∈ p.targetList ∨ q ∈ cs → q < n := by
    rintro q (h | h)
    · rw [pauli_targetList] at h; exact hp q h
    · exact hc q h
  have hF := pauli_flipOK ho hb hf.size
  refine ⟨_, rfl, fun ψ => ?_⟩
  have := applyPauliRotation_runs hF p.z p.coef angle _ (ctrl_mask_iff ho) ψ
  simp only [hgp]
  convert this using 5 with φ j
  rw [pauliOperator_eq]
  unfold PauliAct
  ring

/-- for a real coefficient this is the matrix exponential `exp(-i (angle·coef/2) P)`, because `P² = 1`:
the even and odd parts of the exponential series are the cosine and sine parts.  Here: the two eigenspaces `P ψ = ±ψ`
get the phases `exp(∓ i angle coef / 2)`. -/
theorem C12_eigen {p : PauliOp} {θ : ℂ} {ψ : U64 → ℂ} {s : ℂ} (hs : s = 1 ∨ s = -1)
    (h : ∀ j, pauliOperator ⟨1, p.x, p.z⟩ ψ j = s * ψ j) (j : U64) :
    Complex.cos (θ / 2) * ψ j - Complex.I * Complex.sin (θ / 2) * pauliOperator ⟨1, p.x, p.z⟩ ψ j =
      Complex.exp (-(Complex.I * s * θ / 2)) * ψ j := by
  rw [h]
  rcases hs with rfl | rfl
  · rw [show -(Complex.I * 1 * θ / 2) = (-(θ / 2)) * Complex.I by ring, Complex.exp_mul_I, Complex.cos_neg, Complex.sin_neg]
    ring
  · rw [show -(Complex.I * -1 * θ / 2) = (θ / 2) * Complex.I by ring, Complex.exp_mul_I]
    ring

/-- the string squares to the identity, so every state is a sum of two such eigenvectors -/
theorem C12_square (p : PauliOp) (ψ : U64 → ℂ) :
    pauliOperator ⟨1, p.x, p.z⟩ (pauliOperator ⟨1, p.x, p.z⟩ ψ) = ψ := by
  rw [pauliOperator_eq, pauliOperator_eq]
  have e : ∀ φ : U64 → ℂ, PauliAct ⟨1, p.x, p.z⟩ φ = pauliAct p.x p.z φ := by intro φ; funext j; simp [PauliAct]
  rw [e, e]
  exact pauliAct_sq p.x p.z ψ

/-- an eigenvector for `C12_eigen`: `ψ + Pψ` -/
example (p : PauliOp) (φ : U64 → ℂ) :
    ∀ j, pauliOperator ⟨1, p.x, p.z⟩ (fun j => φ j + pauliOperator ⟨1, p.x, p.z⟩ φ j) j =
      1 * (φ j + pauliOperator ⟨1, p.x, p.z⟩ φ j) := by
  intro j
  have h := congrFun (C12_square p φ) j
  simp only [pauliOperator_eq, PauliAct, pauliAct] at h ⊢
  simp only [one_mul] at h ⊢
  linear_combination h

/-! ## C18 -/

/-- **C18.** The product of Pauli operators is their composition. -/
theorem C18_product (p r : PauliOp) (ψ : U64 → ℂ) :
    pauliOperator (p.mul r) ψ = pauliOperator p (pauliOperator r ψ) := by
  simp only [pauliOperator_eq]; exact mul_spec p r ψ

theorem pauli_ext {p r : PauliOp} (hx : p.x = r.x) (hz : p.z = r.z) (h : ∀ ψ, pauliOperator p ψ = pauliOperator r ψ) :
    p = r := by
  obtain ⟨pc, px, pz⟩ := p
  obtain ⟨rc, rx, rz⟩ := r
  simp only at hx hz
  subst hx; subst hz
  have h1 := congrFun (h (fun _ => 1)) 0
  simp only [pauliOperator_eq, PauliAct, pauliAct, mul_one] at h1
  have h2 : Complex.I ^ pauliExp px pz 0 ≠ 0 := zpow_ne_zero _ Complex.I_ne_zero
  rw [mul_right_cancel₀ h2 h1]

/-- multiplication is associative and the identity string is neutral -/
theorem C18_monoid (p q r : PauliOp) :
    (p.mul q).mul r = p.mul (q.mul r) ∧ PauliOp.mul ⟨1, 0, 0⟩ p = p ∧ p.mul ⟨1, 0, 0⟩ = p := by
  have hid : ∀ ψ, pauliOperator ⟨1, 0, 0⟩ ψ = ψ := by
    intro ψ; rw [pauliOperator_eq]; funext j; unfold PauliAct; rw [pauliAct_zero]; simp
  refine ⟨pauli_ext ?_ ?_ ?_, pauli_ext ?_ ?_ ?_, pauli_ext ?_ ?_ ?_⟩
  · exact BitVec.xor_assoc _ _ _
  · exact BitVec.xor_assoc _ _ _
  · intro ψ; simp only [C18_product]
  · exact BitVec.zero_xor
  · exact BitVec.zero_xor
  · intro ψ; rw [C18_product, hid]
  · exact BitVec.xor_zero
  · exact BitVec.xor_zero
  · intro ψ; rw [C18_product, hid]

/-! ## C19 -/

/-- **C19.** Printing and parsing again gives the same operator; so do the reported lists. -/
theorem C19_roundtrip (p : PauliOp) :
    (∃ s, p.getString = .ok s ∧ PauliOp.ofString s p.coef = .ok p) ∧
    PauliOp.ofLists p.targetList p.idList p.coef = .ok p :=
  ⟨string_roundTrip p, ofLists_self p⟩

/-- the reported lists are the qubits in increasing order with their letters -/
theorem C19_lists (p : PauliOp) :
    p.targetList = pauliQubits p ∧ p.idList.map pauliOfId = (pauliQubits p).map (letterAt p) := by
  refine ⟨pauli_targetList p, ?_⟩
  rw [idList_eq, List.map_map, ← pauli_targetList]
  apply List.map_congr_left
  intro q hq
  simp only [Function.comp_apply]
  have hq' := (maskToVector_spec _).1 q |>.1 hq
  rw [BitVec.getLsbD_or] at hq'
  unfold idAt letterAt
  cases hx : p.x.getLsbD q <;> cases hz : p.z.getLsbD q <;> simp [hx, hz, pauliOfId] at hq' ⊢

/-! ## C20 -/

/-- **C20.** `add_single_pauli` succeeds exactly when the qubit is below 64, the id below 4 and the qubit not used yet;
it then multiplies the operator by exactly that one-qubit Pauli; otherwise it throws. -/
theorem C20_add_single (p : PauliOp) (q id : Nat) :
    ((∃ p', p.addSingle q id = .ok p') ↔ q < 64 ∧ id < 4 ∧ q ∉ pauliQubits p) ∧
    (∀ e, p.addSingle q id = .error e → ∃ msg, e = .throw msg) ∧
    ∀ p', p.addSingle q id = .ok p' → p'.coef = p.coef ∧
      ∀ ψ, pauliOperator p' ψ = applyMat [q] (pauli1Mat (pauliOfId id)) [] (pauliOperator p ψ) := by
  have hmem : q < 64 → (q ∈ pauliQubits p ↔ p.x.getLsbD q = true ∨ p.z.getLsbD q = true) := by
    intro hq
    unfold pauliQubits
    rw [List.mem_filter, List.mem_range, Bool.or_eq_true]
    exact ⟨fun h => h.2, fun h => ⟨hq, h⟩⟩
  have herr : ∀ {msg : String}, p.addSingle q id = .error (.throw msg) → ¬ (q < 64 ∧ id < 4 ∧ q ∉ pauliQubits p) →
      ((∃ p', p.addSingle q id = .ok p') ↔ q < 64 ∧ id < 4 ∧ q ∉ pauliQubits p) ∧
      (∀ e, p.addSingle q id = .error e → ∃ msg, e = .throw msg) ∧
      ∀ p', p.addSingle q id = .ok p' → p'.coef = p.coef ∧
        ∀ ψ, pauliOperator p' ψ = applyMat [q] (pauli1Mat (pauliOfId id)) [] (pauliOperator p ψ) := by
    intro msg he hn
    rw [he]
    refine ⟨⟨?_, fun h => absurd h hn⟩, fun e h => ⟨_, (Except.error.inj h).symm⟩, ?_⟩
    · rintro ⟨_, h⟩; cases h
    · intro _ h; cases h
  have he := addSingle_eq p q id
  by_cases hq : q ≥ 64
  · rw [if_pos hq] at he; exact herr he fun h => by omega
  rw [if_neg hq] at he
  by_cases hid : id ≥ 4
  · rw [if_pos hid] at he; exact herr he fun h => by omega
  rw [if_neg hid] at he
  by_cases hm : p.x.getLsbD q = true ∨ p.z.getLsbD q = true
  · rw [if_pos hm] at he; exact herr he fun h => h.2.2 ((hmem h.1).2 hm)
  rw [if_neg hm] at he
  have hq' : q < 64 := by omega
  have hfree : p.x.getLsbD q = false ∧ p.z.getLsbD q = false := by simpa using hm
  rw [he]
  refine ⟨⟨fun _ => ⟨hq', by omega, fun h => hm ((hmem hq').1 h)⟩, fun _ => ⟨_, rfl⟩⟩, fun e h => (by cases h), fun p' h => ?_⟩
  cases h
  refine ⟨rfl, fun ψ => ?_⟩
  have := pauliAct_add hq' hfree.1 hfree.2 (hasX (pauliOfId id)) (hasZ (pauliOfId id)) ψ
  rw [letter_has] at this
  rw [pauliOperator_eq, pauliOperator_eq]
  unfold PauliAct
  dsimp only
  rw [← this]
  funext j
  exact (congrFun (applyMat_smul _ p.coef (pauliAct p.x p.z ψ)) j).symm

example : (5 < 64 ∧ 2 < 4 ∧ 5 ∉ pauliQubits ⟨1, 1, 0⟩) := by
  rw [show pauliQubits ⟨1, 1, 0⟩ = [0] from by simp only [pauliQubits]; decide]; simp

/-- construction from lists: accepted exactly for equally long lists of distinct qubits below 64 and ids below 4
(identities may be repeated and may carry any qubit number); the result is the product of the listed letters -/
theorem C20_lists (ts ids : List Nat) (coef : ℂ) :
    ((∃ p, PauliOp.ofLists ts ids coef = .ok p) ↔ ts.length = ids.length ∧
      (∀ a ∈ ts.zip ids, a.2 < 4) ∧ (∀ a ∈ ts.zip ids, a.2 ≠ 0 → a.1 < 64) ∧
      (ts.zip ids).Pairwise (fun a b => a.2 = 0 ∨ b.2 = 0 ∨ a.1 ≠ b.1)) ∧
    (∀ e, PauliOp.ofLists ts ids coef = .error e → ∃ msg, e = .throw msg) ∧
    ∀ p, PauliOp.ofLists ts ids coef = .ok p → ∀ ψ, pauliOperator p ψ =
      fun j => coef * applyPaulis ((ts.zip ids).map fun a => (a.1, pauliOfId a.2)) ψ j := by
  refine ⟨?_, fun e h => ofLists_error h, fun p h ψ => ?_⟩
  · rw [ofLists_ok_iff]
    constructor
    · rintro ⟨h1, h2⟩; exact ⟨h1, h2.id, h2.lt, h2.distinct⟩
    · rintro ⟨h1, h2, h3, h4⟩; exact ⟨h1, ⟨h2, h3, h4⟩⟩
  · obtain ⟨h1, rfl⟩ := ofLists_eq h
    rw [pauliOperator_eq]
    funext j
    unfold PauliAct
    dsimp only
    have := applyPaulis_eq h1.str ψ
    rw [← this]
    rfl

example : ∃ p, PauliOp.ofLists [5, 0, 3, 9, 9] [1, 2, 3, 0, 0] Complex.I = .ok p := by
  rw [(C20_lists _ _ _).1]; simp

/-! ## C21 -/

/-- **C21.** `get_dagger` is the adjoint. -/
theorem C21_dagger (p : PauliOp) {n : Nat} (hn : n ≤ 64) (hp : PauliFits p n) (φ ψ : U64 → ℂ) :
    inner (2 ^ n) φ (pauliOperator p ψ) = (starRingEnd ℂ) (inner (2 ^ n) ψ (pauliOperator p.dagger φ)) := by
  have h := dagger_spec p (flipOK_zero hn (fits_masks hp).1) φ ψ
  rw [Nat.one_mul] at h
  rw [pauliOperator_eq, pauliOperator_eq, h]
  unfold inner
  rw [map_sum]
  apply Finset.sum_congr rfl
  intro j _
  rw [map_mul, Complex.conj_conj]
  ring

example : PauliFits sampleP 6 := sampleP_fits

/-! ## C22, C23 -/

/-- **C22.** The expectation value is `⟨ψ|P ψ⟩`. -/
theorem C22_expectation (p : PauliOp) {n : Nat} (hn : n ≤ 64) (hp : PauliFits p n) (ψ : U64 → ℂ) :
    p.expectation (2 ^ n) ψ = .ok (inner (2 ^ n) ψ (pauliOperator p ψ)) := by
  rw [pauliOperator_eq]; exact expectation_spec p hn (fits_masks hp).1 ψ

/-- batched expectation values: one per slot -/
theorem C22_expectation_batched (p : PauliOp) {n : Nat} (hn : n ≤ 64) (hp : PauliFits p n) (batch : Nat)
    (ψ : Nat → U64 → ℂ) :
    p.expectationBatched batch (2 ^ n) ψ =
      .ok ((List.range batch).map fun b => inner (2 ^ n) (ψ b) (pauliOperator p (ψ b))) := by
  simp only [pauliOperator_eq]; exact expectationBatched_spec p hn (fits_masks hp).1 batch ψ

/-- **C23.** The transition amplitude is `⟨bra|P ket⟩`. -/
theorem C23_transition (p : PauliOp) {n : Nat} (hn : n ≤ 64) (hp : PauliFits p n) (bra ket : U64 → ℂ) :
    p.transition (2 ^ n) (2 ^ n) bra ket = .ok (inner (2 ^ n) bra (pauliOperator p ket)) := by
  rw [pauliOperator_eq]; exact transition_spec p hn (fits_masks hp).1 bra ket

theorem reduceList_ub {R : Type} [Add R] [_root_.Zero R] {f : U64 → Res R} {m : String} : ∀ (l : List Nat) (acc : R),
    (∀ i ∈ l, (∃ x, f (BitVec.ofNat 64 i) = .ok x) ∨ f (BitVec.ofNat 64 i) = .error (.ub m)) →
    (∃ i ∈ l, f (BitVec.ofNat 64 i) = .error (.ub m)) →
    l.foldlM (fun acc i => do let x ← f (BitVec.ofNat 64 i); pure (acc + x)) acc = (.error (.ub m) : Res R) := by
  intro l
  induction l with
  | nil => rintro _ _ ⟨_, h, _⟩; cases h
  | cons i l ih =>
    rintro acc h1 ⟨k, hk, h2⟩
    rw [List.foldlM_cons]
    rcases h1 i List.mem_cons_self with ⟨x, hx⟩ | hx
    · rw [hx]
      refine ih _ (fun i hi => h1 i (List.mem_cons_of_mem _ hi)) ⟨k, ?_, h2⟩
      rcases List.mem_cons.1 hk with rfl | hk
      · rw [hx] at h2; cases h2
      · exact hk
    · rw [hx]; rfl

/-- C23 needs states of one size: the sizes of the two states are not compared (the batched version and `Operator` throw): with fewer qubits in the ket, memory
outside of the ket is read. -/
theorem C23_sizes_unchecked (p : PauliOp) (hp : p.x = 0) {n n' : Nat} (hn : n ≤ 63) (h : n' < n) (bra ket : U64 → ℂ) :
    ∃ m, p.transition (2 ^ n) (2 ^ n') bra ket = .error (.ub m) := by
  have hlt : (2 : ℕ) ^ n' < 2 ^ n := Nat.pow_lt_pow_right (by norm_num) h
  have hle : (2 : ℕ) ^ n ≤ 2 ^ 63 := Nat.pow_le_pow_right (by norm_num) hn
  unfold PauliOp.transition
  rw [if_pos hp]
  have toNat : ∀ i < 2 ^ n, (BitVec.ofNat 64 i).toNat = i := fun i hi => by
    rw [BitVec.toNat_ofNat, Nat.mod_eq_of_lt (by omega)]
  have key : ∀ {N : Nat} {f : U64 → Res ℂ}, (∀ i ∈ List.range N, (∃ x, f (BitVec.ofNat 64 i) = .ok x) ∨
      f (BitVec.ofNat 64 i) = .error (.ub "_raw index out of range")) →
      (∃ i ∈ List.range N, f (BitVec.ofNat 64 i) = .error (.ub "_raw index out of range")) →
      reduceSum N f = .error (.ub "_raw index out of range") := fun h1 h2 => reduceList_ub _ _ h1 h2
  rw [key]
  · exact ⟨_, rfl⟩
  · intro i hi
    have hi := List.mem_range.1 hi
    unfold readAt
    rw [toNat i hi, if_pos hi]
    by_cases hk : i < 2 ^ n'
    · rw [if_pos hk]; exact .inl ⟨_, rfl⟩
    · rw [if_neg hk]; exact .inr rfl
  · refine ⟨2 ^ n', List.mem_range.2 hlt, ?_⟩
    unfold readAt
    rw [toNat _ hlt, if_pos hlt, if_neg (by omega)]
    rfl

example : (⟨1, 0, 1⟩ : PauliOp).x = 0 ∧ 1 < 2 := ⟨rfl, by decide⟩

/-- zero qubits are included -/
example : PauliFits ⟨3, 0, 0⟩ 0 := by
  unfold PauliFits; rw [show pauliQubits ⟨3, 0, 0⟩ = [] from by simp only [pauliQubits]; decide]; simp

/-! ## C24 -/

/-- **C24 (partial).** Slot `b` of the batched transition amplitude is the single-state transition amplitude when the
string flips no qubit and the amplitude of the string without coefficient is real.  Missing: everything else, where
the code computes something different (`C24_counterexample`). -/
theorem C24_batched_transition_partial (p : PauliOp) {bra ket : Batch} (hnq : bra.n = ket.n) (hsz : bra.size = ket.size)
    (hn : bra.n ≤ 64) (hp : PauliFits p bra.n) (hx : p.x = 0)
    (hre : ∀ b, b < bra.size → (inner (2 ^ bra.n) (bra.raw b) (pauliOperator ⟨1, p.x, p.z⟩ (ket.raw b))).im = 0) :
    p.transitionBatched bra ket =
      .ok ((List.range bra.size).map fun b => inner (2 ^ bra.n) (bra.raw b) (pauliOperator p (ket.raw b))) := by
  rw [transitionBatched_eq p hnq hsz hn (fits_masks hp).1]
  congr 1
  apply List.map_congr_left
  intro b hb
  have h := hre b (List.mem_range.1 hb)
  rw [pauliOperator_eq] at h ⊢
  have e : PauliAct ⟨1, p.x, p.z⟩ (ket.raw b) = pauliAct p.x p.z (ket.raw b) := by funext j; simp [PauliAct]
  rw [e] at h
  rw [if_pos hx, one_mul]
  have e2 : inner (2 ^ bra.n) (bra.raw b) (PauliAct p (ket.raw b)) =
      p.coef * inner (2 ^ bra.n) (bra.raw b) (pauliAct p.x p.z (ket.raw b)) := by
    unfold inner PauliAct
    rw [Finset.mul_sum]
    apply Finset.sum_congr rfl; intro j _; ring
  rw [e2]
  congr 1
  exact Complex.ext (by simp) (by simp [h])

/-- states with different numbers of qubits or batches of different sizes are rejected -/
theorem C24_mismatch (p : PauliOp) (bra ket : Batch) (h : bra.n ≠ ket.n ∨ bra.size ≠ ket.size) :
    ∃ e, p.transitionBatched bra ket = .error (.throw e) := by
  unfold PauliOp.transitionBatched
  by_cases h1 : bra.n = ket.n
  · rw [if_neg (by simp [h1]), if_pos (by rcases h with h | h <;> tauto)]; exact ⟨_, rfl⟩
  · rw [if_pos h1]; exact ⟨_, rfl⟩

example : (⟨1, 2, fun _ _ => 0⟩ : Batch).size ≠ (⟨1, 1, fun _ _ => 0⟩ : Batch).size := by decide

/-- basis state -/
noncomputable def basisState (k : U64) : U64 → ℂ := fun j => if j = k then 1 else 0

/-- **C24 fails**: `X₀` between `|0⟩` and `|1⟩` on one qubit has amplitude 1, the batched function returns 2. -/
theorem C24_counterexample :
    ∃ (p : PauliOp) (bra ket : Batch), bra.n = 1 ∧ ket.n = 1 ∧ bra.size = 1 ∧ ket.size = 1 ∧
      p.transition 2 2 (bra.raw 0) (ket.raw 0) = .ok 1 ∧ p.transitionBatched bra ket = .ok [2] := by
  have hp : PauliFits ⟨1, 1, 0⟩ 1 := by
    unfold PauliFits; rw [show pauliQubits ⟨1, 1, 0⟩ = [0] from by simp only [pauliQubits]; decide]; simp
  have hidx : indices 2 = {(0 : U64), 1} := by
    ext j
    rw [mem_indices (by norm_num)]
    simp only [Finset.mem_insert, Finset.mem_singleton]
    constructor
    · intro h
      have : j.toNat = 0 ∨ j.toNat = 1 := by omega
      rcases this with h | h
      · left; exact BitVec.eq_of_toNat_eq (by rw [h]; rfl)
      · right; exact BitVec.eq_of_toNat_eq (by rw [h]; rfl)
    · rintro (rfl | rfl) <;> decide
  have hval : inner 2 (basisState 0) (pauliAct 1 0 (basisState 1)) = 1 := by
    have h01 : (0 : U64) ≠ 1 := by decide
    have x1 : (0 : U64) ^^^ 1 = 1 := by decide
    unfold inner
    rw [hidx, Finset.sum_pair h01]
    have hp0 : pauliAct 1 0 (basisState 1) 0 = 1 := by
      unfold pauliAct pauliExp
      have p1 : popcount ((1 : U64) &&& 0) = 0 := by decide
      have p2 : popcount ((0 : U64) &&& 0) = 0 := by decide
      rw [x1, p1, p2]; simp [basisState]
    rw [hp0]
    simp [basisState]
  refine ⟨⟨1, 1, 0⟩, ⟨1, 1, fun _ => basisState 0⟩, ⟨1, 1, fun _ => basisState 1⟩, rfl, rfl, rfl, rfl, ?_, ?_⟩
  · have := C23_transition ⟨1, 1, 0⟩ (n := 1) (by norm_num) hp (basisState 0) (basisState 1)
    rw [pauliOperator_eq] at this
    have e : PauliAct ⟨1, 1, 0⟩ (basisState 1) = pauliAct 1 0 (basisState 1) := by funext j; simp [PauliAct]
    rw [e] at this
    rw [show (2 : ℕ) = 2 ^ 1 from rfl, this]
    congr 1
  · rw [transitionBatched_eq (bra := ⟨1, 1, fun _ => basisState 0⟩) (ket := ⟨1, 1, fun _ => basisState 1⟩) ⟨1, 1, 0⟩ rfl rfl
      (by norm_num) (fits_masks hp).1]
    congr 1
    show [_] = _
    have hx : ¬ ((1 : U64) = 0) := by decide
    dsimp only
    rw [if_neg hx, show (2 : ℕ) ^ 1 = 2 from rfl, hval]
    simp

/-- the partial theorem applies to `⟨1|Z₀|1⟩` -/
example : PauliFits ⟨Complex.I, 0, 1⟩ 1 := by
  unfold PauliFits; rw [show pauliQubits ⟨Complex.I, 0, 1⟩ = [0] from by simp only [pauliQubits]; decide]; simp

/-! ## C25 -/

/-- **C25 (partial).** `get_matrix` represents the operator (coefficient included) on its qubits; `get_full_matrix(n)`
represents it on the whole register when the coefficient is 1.  Missing: `get_full_matrix` with another coefficient
(`C25_counterexample`). -/
theorem C25_matrix_partial (p : PauliOp) {n : Nat} (hn : n < 64) (hp : PauliFits p n) :
    (∃ M, p.getMatrix = .ok M ∧ M.rows = 2 ^ (pauliQubits p).length ∧ M.cols = 2 ^ (pauliQubits p).length ∧
      ∀ ψ, applyMat (pauliQubits p) M.entry [] ψ = pauliOperator p ψ) ∧
    (∃ M, p.getMatrixIgnoringCoef = .ok M ∧ M.rows = 2 ^ (pauliQubits p).length ∧ M.cols = 2 ^ (pauliQubits p).length ∧
      ∀ ψ, applyMat (pauliQubits p) M.entry [] ψ = pauliOperator ⟨1, p.x, p.z⟩ ψ) ∧
    (∃ M, p.getFullMatrixIgnoringCoef n = .ok M ∧ M.rows = 2 ^ n ∧ M.cols = 2 ^ n ∧
      ∀ ψ, applyMat (List.range n) M.entry [] ψ = pauliOperator ⟨1, p.x, p.z⟩ ψ) ∧
    (p.coef = 1 → ∃ M, p.getFullMatrix n = .ok M ∧ M.rows = 2 ^ n ∧ M.cols = 2 ^ n ∧
      ∀ ψ, applyMat (List.range n) M.entry [] ψ = pauliOperator p ψ) := by
  obtain ⟨hx, hz⟩ := fits_masks hp
  have e : ∀ ψ, pauliOperator ⟨1, p.x, p.z⟩ ψ = pauliAct p.x p.z ψ := by
    intro ψ; rw [pauliOperator_eq]; funext j; simp [PauliAct]
  have hlen : popcount (p.x ||| p.z) < 64 := by
    rw [← length_maskToVector]
    show p.targetList.length < 64
    rw [pauli_targetList]
    have h2 : (pauliQubits p).Subperm (List.range n) := List.subperm_of_subset
      ((List.nodup_range).filter _) fun q hq => List.mem_range.2 (hp q hq)
    have := h2.length_le
    simp at this
    omega
  refine ⟨?_, ?_, ?_, ?_⟩
  · obtain ⟨M, h1, h2, h3, h4⟩ := getMatrix_spec p hlen
    rw [pauli_targetList] at h2 h3 h4
    refine ⟨M, h1, h2, h3, fun ψ => ?_⟩
    rw [h4, pauliOperator_eq]
    funext j; rw [if_pos (by simp [CtrlOK])]; rfl
  · obtain ⟨M, h1, h2, h3, h4⟩ := getMatrixIgnoringCoef_spec p hlen
    rw [pauli_targetList] at h2 h3 h4
    refine ⟨M, h1, h2, h3, fun ψ => ?_⟩
    rw [h4, e]
    funext j; rw [if_pos (by simp [CtrlOK])]
  · obtain ⟨M, h1, h2, h3, h4⟩ := getFullMatrixIgnoringCoef_spec p hn hx hz
    exact ⟨M, h1, h2, h3, fun ψ => by rw [h4, e]⟩
  · intro hc
    obtain ⟨M, h1, h2, h3, h4⟩ := getFullMatrixIgnoringCoef_spec p hn hx hz
    refine ⟨M, h1, h2, h3, fun ψ => ?_⟩
    rw [h4, ← e]
    obtain ⟨c, x, z⟩ := p
    simp only at hc
    rw [hc]

/-- **C25 fails for `get_full_matrix`**: the coefficient is dropped.  For `2·Z₀` on one qubit the matrix maps `|0⟩` to
`|0⟩`, the operator maps it to `2|0⟩`. -/
theorem C25_counterexample :
    ∃ (p : PauliOp) (M : DMat ℂ), PauliFits p 1 ∧ p.getFullMatrix 1 = .ok M ∧
      applyMat (List.range 1) M.entry [] (basisState 0) 0 = 1 ∧ pauliOperator p (basisState 0) 0 = 2 := by
  have hp : PauliFits ⟨2, 0, 1⟩ 1 := by
    unfold PauliFits; rw [show pauliQubits ⟨2, 0, 1⟩ = [0] from by simp only [pauliQubits]; decide]; simp
  obtain ⟨hx, hz⟩ := fits_masks hp
  obtain ⟨M, h1, h2, h3, h4⟩ := getFullMatrixIgnoringCoef_spec ⟨2, 0, 1⟩ (n := 1) (by norm_num) hx hz
  have hv : pauliAct 0 1 (basisState 0) 0 = 1 := by
    unfold pauliAct pauliExp
    have p1 : popcount ((0 : U64) &&& 1) = 0 := by decide
    have x1 : (0 : U64) ^^^ 0 = 0 := by decide
    rw [x1, p1]; simp [basisState]
  refine ⟨⟨2, 0, 1⟩, M, hp, h1, ?_, ?_⟩
  · rw [h4]; exact hv
  · rw [pauliOperator_eq]
    show 2 * pauliAct 0 1 (basisState 0) 0 = 2
    rw [hv]; norm_num

end Verif.Props
