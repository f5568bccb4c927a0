import Verif.Proofs.FloatPauliRead
import Verif.Props.Pauli
import Verif.Props.Reductions

/-! # C98: transition amplitudes, and readings of Pauli operators, in floating-point arithmetic

The functions of `Model/FloatTransition.lean` are relations between states and the outcomes of parallel reductions, as in C72.
-/

namespace Verif.Props
open Verif Verif.Spec Verif.Model Verif.Proofs
attribute [-simp] BitVec.getLsbD_eq_getElem

section
variable {F : Type} [_root_.Zero F] [One F] [Add F] [Sub F] [Mul F] [Neg F] {lib : FloatLib F} {val : F → ℝ} {u w η Ω ε : ℝ}

theorem within_transition (A : Accurate lib val u w η Ω) (Z : AddZero val Ω) (hu : u ≤ 1 / 64) (hη : η ≤ 1 / 1000) {n : Nat} (hn1 : 1 ≤ n) (hn : n ≤ 64)
    {bra ket : U64 → Cx F} (hb : ∀ j : U64, j.toNat < 2 ^ n → ‖cval val (bra j)‖ ≤ 2) (hk : ∀ j : U64, j.toNat < 2 ^ n → ‖cval val (ket j)‖ ≤ 2) {o : Op}
    (ho : OpFits o n) (hc : ∀ p ∈ o.terms, ‖p.coef‖ ≤ 4) {C S : ℝ} (hC : C = (o.terms.map fun p => ‖p.coef‖).sum)
    (hS : S = normSq (2 ^ n) (fun j => cval val (bra j)) + normSq (2 ^ n) fun j => cval val (ket j))
    (hΩ : ((1 : ℝ) + u) ^ (o.terms.length * 2 ^ (n - 1) + 9) * (C * S + 240 * ((2 ^ (n - 1) : ℕ) : ℝ) * η * (o.terms.length + C)) ≤ Ω) :
    WithinC val (o.TransitionSumF lib (2 ^ n) bra ket) (inner (2 ^ n) (fun j => cval val (bra j)) (sumOperator o.terms fun j => cval val (ket j)))
      (transErr u η o.terms.length (2 ^ (n - 1)) C S) := by
  rw [sumOperator_eq]
  obtain ⟨⟨s, hs⟩, h2⟩ := transition_reduction A Z hu hη hn1 hn hb hk (opFits_x ho) hc hC hS hΩ
  exact ⟨⟨_, hs⟩, h2⟩

/-- **C98, transition amplitudes.** `get_transition_amplitude` is `⟨bra|O|ket⟩` up to `transErr` in each part, whatever the order of the
additions. -/
theorem C98_transition (A : Accurate lib val u w η Ω) (Z : AddZero val Ω) (hu : u ≤ 1 / 64) (hη : η ≤ 1 / 1000) {n : Nat} (hn1 : 1 ≤ n) (hn : n ≤ 64)
    {bra ket : U64 → Cx F} (hb : ∀ j : U64, j.toNat < 2 ^ n → ‖cval val (bra j)‖ ≤ 2) (hk : ∀ j : U64, j.toNat < 2 ^ n → ‖cval val (ket j)‖ ≤ 2) {o : Op}
    (ho : OpFits o n) (hc : ∀ p ∈ o.terms, ‖p.coef‖ ≤ 4) {C S : ℝ} (hC : C = (o.terms.map fun p => ‖p.coef‖).sum)
    (hS : S = normSq (2 ^ n) (fun j => cval val (bra j)) + normSq (2 ^ n) fun j => cval val (ket j))
    (hΩ : ((1 : ℝ) + u) ^ (o.terms.length * 2 ^ (n - 1) + 9) * (C * S + 240 * ((2 ^ (n - 1) : ℕ) : ℝ) * η * (o.terms.length + C)) ≤ Ω) :
    WithinC val (o.TransitionF lib n n bra ket) (inner (2 ^ n) (fun j => cval val (bra j)) (sumOperator o.terms fun j => cval val (ket j)))
      (transErr u η o.terms.length (2 ^ (n - 1)) C S) := by
  have h := within_transition A Z hu hη hn1 hn hb hk ho hc hC hS hΩ
  unfold Op.TransitionF
  simp only [ne_eq, not_true_eq_false, if_false]
  exact h

/-- **C98, sizes.** States with different numbers of qubits, and batches of different sizes, are refused with an exception. -/
theorem C98_mismatch (o : Op) {n n' B B' : Nat} :
    (n ≠ n' → ∀ (bra ket : U64 → Cx F) r, o.TransitionF lib n n' bra ket r ↔
      r = .error (.throw "Operator::get_transition_amplitude: n_qubits of state_vector_bra and state_vector_ket must be same")) ∧
    (n ≠ n' → ∀ (bra ket : Nat → U64 → Cx F) r, o.TransitionBatchedF lib n n' B B' bra ket r ↔
      r = .error (.throw "Operator::get_transition_amplitude: n_qubits of state_vector_bra and state_vector_ket must be same")) ∧
    (B ≠ B' → ∀ (bra ket : Nat → U64 → Cx F) r, o.TransitionBatchedF lib n n B B' bra ket r ↔
      r = .error (.throw "Operator::get_transition_amplitude: batch_size of state_vector_bra and state_vector_ket must be same")) := by
  refine ⟨fun h bra ket r => ?_, fun h bra ket r => ?_, fun h bra ket r => ?_⟩
  · unfold Op.TransitionF; rw [if_pos h]
  · unfold Op.TransitionBatchedF; rw [if_pos h]
  · unfold Op.TransitionBatchedF; rw [if_neg (by simp), if_pos h]

/-! ## batches -/

/-- Every outcome is a list of `B` numbers, the `b`-th within `e b` of `v b` in each part, and there is an outcome. -/
def WithinEach (val : F → ℝ) (B : Nat) (Out : Res (List (Cx F)) → Prop) (v : Nat → ℂ) (e : Nat → ℝ) : Prop :=
  (∃ r, Out r) ∧ ∀ r, Out r → ∃ l, r = .ok l ∧ l.length = B ∧
    ∀ b (h : b < l.length), |val l[b].re - (v b).re| ≤ e b ∧ |val l[b].im - (v b).im| ≤ e b

theorem within_perSlot {B : Nat} {Out : Nat → Res (Cx F) → Prop} {v : Nat → ℂ} {e : Nat → ℝ} (h : ∀ b < B, WithinC val (Out b) (v b) (e b)) :
    WithinEach val B (PerSlotF B Out) v e := by
  constructor
  · have hex : ∀ b : Fin B, ∃ s, Out b.val (.ok s) := by
      intro b
      obtain ⟨⟨r, hr⟩, h2⟩ := h b.val b.isLt
      obtain ⟨s, rfl, -⟩ := h2 r hr
      exact ⟨s, hr⟩
    choose f hf using hex
    refine ⟨.ok (List.ofFn f), by simp, fun b => ?_⟩
    rw [List.getElem_ofFn]
    exact hf b
  · intro r hr
    cases r with
    | error er =>
      obtain ⟨b, hb⟩ := hr
      obtain ⟨s, hs, -⟩ := (h b.val b.isLt).2 _ hb
      cases hs
    | ok l =>
      obtain ⟨hl, hb⟩ := hr
      refine ⟨l, rfl, hl, fun b hb' => ?_⟩
      obtain ⟨s, hs, h1⟩ := (h b (by omega)).2 _ (hb ⟨b, by omega⟩)
      cases hs
      exact h1

/-- **C98, transition amplitudes of batches.** The `b`-th result is `⟨bra_b|O|ket_b⟩` up to `transErr`. -/
theorem C98_transition_batched (A : Accurate lib val u w η Ω) (Z : AddZero val Ω) (hu : u ≤ 1 / 64) (hη : η ≤ 1 / 1000) {n B : Nat} (hn1 : 1 ≤ n) (hn : n ≤ 64)
    {bra ket : Nat → U64 → Cx F} (hb : ∀ b < B, ∀ j : U64, j.toNat < 2 ^ n → ‖cval val (bra b j)‖ ≤ 2)
    (hk : ∀ b < B, ∀ j : U64, j.toNat < 2 ^ n → ‖cval val (ket b j)‖ ≤ 2) {o : Op} (ho : OpFits o n) (hc : ∀ p ∈ o.terms, ‖p.coef‖ ≤ 4) {C : ℝ} {S : Nat → ℝ}
    (hC : C = (o.terms.map fun p => ‖p.coef‖).sum)
    (hS : ∀ b < B, S b = normSq (2 ^ n) (fun j => cval val (bra b j)) + normSq (2 ^ n) fun j => cval val (ket b j))
    (hΩ : ∀ b < B, ((1 : ℝ) + u) ^ (o.terms.length * 2 ^ (n - 1) + 9) *
      (C * S b + 240 * ((2 ^ (n - 1) : ℕ) : ℝ) * η * (o.terms.length + C)) ≤ Ω) :
    WithinEach val B (o.TransitionBatchedF lib n n B B bra ket)
      (fun b => inner (2 ^ n) (fun j => cval val (bra b j)) (sumOperator o.terms fun j => cval val (ket b j)))
      (fun b => transErr u η o.terms.length (2 ^ (n - 1)) C (S b)) := by
  have h := within_perSlot (val := val) (B := B) fun b h =>
    within_transition A Z hu hη hn1 hn (hb b h) (hk b h) ho hc hC (hS b h) (hΩ b h)
  unfold Op.TransitionBatchedF
  simp only [ne_eq, not_true_eq_false, if_false]
  exact h

/-- **C98, expectation values of batches.** The `b`-th result is `⟨ψ_b|O|ψ_b⟩` up to `expErr`. -/
theorem C98_expectation_batched (A : Accurate lib val u w η Ω) (Z : AddZero val Ω) (hu : u ≤ 1 / 64) (hη : η ≤ 1 / 1000) {n B : Nat} (hn1 : 1 ≤ n) (hn : n ≤ 64)
    {m : Nat → U64 → Cx F} (hm : ∀ b < B, ∀ j : U64, j.toNat < 2 ^ n → ‖cval val (m b j)‖ ≤ 4) {o : Op} (ho : OpFits o n)
    (hc : ∀ p ∈ o.terms, ‖p.coef‖ ≤ 32) {C : ℝ} {S : Nat → ℝ} (hC : C = (o.terms.map fun p => ‖p.coef‖).sum)
    (hS : ∀ b < B, S b = normSq (2 ^ n) fun j => cval val (m b j))
    (hΩ : ∀ b < B, ((1 : ℝ) + u) ^ (o.terms.length * 2 ^ (n - 1) + 8) *
      (C * S b + 100 * ((2 ^ (n - 1) : ℕ) : ℝ) * η * (o.terms.length + C)) ≤ Ω) :
    WithinEach val B (o.ExpectationBatchedF lib n B m)
      (fun b => inner (2 ^ n) (fun j => cval val (m b j)) (sumOperator o.terms fun j => cval val (m b j)))
      (fun b => expErr u η o.terms.length (2 ^ (n - 1)) C (S b)) :=
  within_perSlot fun b h => C72_expectation A Z hu hη hn1 hn (hm b h) ho hc hC (hS b h) (hΩ b h)

/-! ## Pauli operators -/

/-- **C98, expectation values of Pauli operators.** -/
theorem C98_pauli_expectation (A : Accurate lib val u w η Ω) (Z : AddZero val Ω) (hu : u ≤ 1 / 64) (hη : η ≤ 1 / 1000) {n : Nat} (hn : n ≤ 64)
    {m : U64 → Cx F} (hm : ∀ j : U64, j.toNat < 2 ^ n → ‖cval val (m j)‖ ≤ 4) {p : PauliOp} (hp : PauliFits p n) (hc : ‖p.coef‖ ≤ 32) {S : ℝ}
    (hS : S = normSq (2 ^ n) fun j => cval val (m j))
    (hR : (1 + u) ^ (2 ^ n + 9) * ((1 + ‖p.coef‖) * S + 100 * (((2 ^ n : ℕ) : ℝ) + 1) * η * (1 + ‖p.coef‖) * (1 + S)) ≤ 64) :
    WithinC val (p.ExpectationF lib (2 ^ n) m) (inner (2 ^ n) (fun j => cval val (m j)) (pauliOperator p fun j => cval val (m j)))
      (pauliErr u η (2 ^ n) ‖p.coef‖ S) := by
  rw [pauliOperator_eq]
  obtain ⟨⟨s, hs⟩, h2⟩ := pauliExpectation_reduction A Z hu hη hn hm (fits_masks hp).1 hc hS hR
  exact ⟨⟨_, hs⟩, h2⟩

/-- **C98, transition amplitudes of Pauli operators.** -/
theorem C98_pauli_transition (A : Accurate lib val u w η Ω) (Z : AddZero val Ω) (hu : u ≤ 1 / 64) (hη : η ≤ 1 / 1000) {n : Nat} (hn : n ≤ 64)
    {bra ket : U64 → Cx F} (hb : ∀ j : U64, j.toNat < 2 ^ n → ‖cval val (bra j)‖ ≤ 2) (hk : ∀ j : U64, j.toNat < 2 ^ n → ‖cval val (ket j)‖ ≤ 2) {p : PauliOp}
    (hp : PauliFits p n) (hc : ‖p.coef‖ ≤ 32) {S : ℝ} (hS : S = normSq (2 ^ n) (fun j => cval val (bra j)) + normSq (2 ^ n) fun j => cval val (ket j))
    (hR : (1 + u) ^ (2 ^ n + 9) * ((1 + ‖p.coef‖) * S + 100 * (((2 ^ n : ℕ) : ℝ) + 1) * η * (1 + ‖p.coef‖) * (1 + S)) ≤ 64) :
    WithinC val (p.TransitionF lib (2 ^ n) (2 ^ n) bra ket) (inner (2 ^ n) (fun j => cval val (bra j)) (pauliOperator p fun j => cval val (ket j)))
      (pauliErr u η (2 ^ n) ‖p.coef‖ S) := by
  rw [pauliOperator_eq]
  obtain ⟨⟨s, hs⟩, h2⟩ := pauliTransition_reduction A Z hu hη hn hb hk (fits_masks hp).1 hc hS hR
  exact ⟨⟨_, hs⟩, h2⟩

/-! ## the states computed by two circuits -/

theorem trans_diff {n : Nat} (hn : n ≤ 63) {ts : List PauliOp} (hx : ∀ p ∈ ts, p.x.toNat < 2 ^ n) (ψ φ ψ' φ' : U64 → ℂ) :
    ‖inner (2 ^ n) ψ (OpAct ts ψ') - inner (2 ^ n) φ (OpAct ts φ')‖ ≤
      (ts.map fun p => ‖p.coef‖).sum * (‖vec n ψ‖ * ‖vec n ψ' - vec n φ'‖ + ‖vec n ψ - vec n φ‖ * ‖vec n φ'‖) := by
  rw [inner_vec hn, inner_vec hn]
  have e : Inner.inner ℂ (vec n ψ) (vec n (OpAct ts ψ')) - Inner.inner ℂ (vec n φ) (vec n (OpAct ts φ')) =
      Inner.inner ℂ (vec n ψ) (vec n (OpAct ts ψ') - vec n (OpAct ts φ')) + Inner.inner ℂ (vec n ψ - vec n φ) (vec n (OpAct ts φ')) := by
    rw [inner_sub_right, inner_sub_left]; ring
  have h1 : ‖vec n (OpAct ts ψ') - vec n (OpAct ts φ')‖ ≤ (ts.map fun p => ‖p.coef‖).sum * ‖vec n ψ' - vec n φ'‖ := by
    rw [← vec_sub, ← vec_sub, ← opAct_sub]
    exact vec_opAct_le hn hx _
  have h2 := vec_opAct_le hn hx φ'
  rw [e]
  refine (norm_add_le _ _).trans ((add_le_add (norm_inner_le_norm _ _) (norm_inner_le_norm _ _)).trans ?_)
  have := mul_le_mul_of_nonneg_left h1 (norm_nonneg (vec n ψ))
  have := mul_le_mul_of_nonneg_left h2 (norm_nonneg (vec n ψ - vec n φ))
  linarith

theorem transErr_mono (hu0 : 0 ≤ u) {T N : Nat} {C S S' : ℝ} (hC : 0 ≤ C) (hS : S ≤ S') : transErr u η T N C S ≤ transErr u η T N C S' := by
  unfold transErr
  have h3 : 1 ≤ (1 + u) ^ (T * N + 8) := one_le_pow₀ (by linarith)
  have := mul_le_mul_of_nonneg_left (mul_le_mul_of_nonneg_left hS hC) (show 0 ≤ (1 + u) ^ (T * N + 8) - 1 by linarith)
  linarith

/-- what is known about a computed state -/
theorem computed_facts {n : Nat} (hn : n ≤ 63) {ψ φ : U64 → ℂ} {e : ℝ} (he : e ≤ 1) (hφ : stateNorm (2 ^ n) φ ≤ 1)
    (h : stateNorm (2 ^ n) (fun j => ψ j - φ j) ≤ e) :
    ‖vec n ψ - vec n φ‖ ≤ e ∧ ‖vec n ψ‖ ≤ 2 ∧ ‖vec n φ‖ ≤ 1 ∧ normSq (2 ^ n) ψ ≤ 4 ∧ ∀ j : U64, j.toNat < 2 ^ n → ‖ψ j‖ ≤ 2 := by
  obtain ⟨-, h4, -⟩ := computed_state hn he hφ h
  rw [stateNorm, sqrt_normSq hn] at h hφ
  rw [vec_sub] at h
  refine ⟨h, ?_, hφ, h4, fun j hj => ?_⟩
  · have := norm_add_le (vec n ψ - vec n φ) (vec n φ)
    rw [sub_add_cancel] at this
    linarith
  · have h1 : Complex.normSq (ψ j) ≤ normSq (2 ^ n) ψ :=
      Finset.single_le_sum (f := fun j => Complex.normSq (ψ j)) (fun _ _ => Complex.normSq_nonneg _) ((mem_indices (pow64 hn)).2 hj)
    rw [Complex.normSq_eq_norm_sq] at h1
    nlinarith [norm_nonneg (ψ j)]

/-- **C98, circuits then transition amplitude.** Two circuits of `k₁` and `k₂` unitary gates on states of norm at most one, followed by
`get_transition_amplitude`: every outcome is, in each part, within `C (k₁ + 2 k₂) E + transErr` of the exact value, `C` the sum of the
magnitudes of the coefficients of the operator. -/
theorem C98_circuit_transition (A : Accurate lib val u w η Ω) (Z : AddZero val Ω) (hε : u + η + w ≤ ε) (h4 : ε ≤ 1 / 1000) {ds₁ ds₂ : List GateDesc}
    {gs₁ gs₂ : List UGate} (hb₁ : List.Forall₂ (fun d g => GateDesc.build d = .ok g) ds₁ gs₁) (hb₂ : List.Forall₂ (fun d g => GateDesc.build d = .ok g) ds₂ gs₂)
    (hd : ∀ d ∈ ds₁ ++ ds₂, Bounded u w η Ω ε d) (hu : ∀ d ∈ ds₁ ++ ds₂, UnitaryDesc d) {L n : Nat} (hn1 : 1 ≤ n) (hf : Fits L 1 n)
    (hq : ∀ d ∈ ds₁ ++ ds₂, ∀ q ∈ qubitsOf d, q < n) {K : ℝ} (hK : ∀ d ∈ ds₁ ++ ds₂, terms d ≤ K) (hKε : K * ε ≤ 1 / 400) (hKΩ : 16 * K ≤ Ω) {E : ℝ}
    (hE : E = 256 * K ^ 2 * (2 * ε + η * √((2 ^ n : Nat) : ℝ))) (hk₁ : ds₁.length * E ≤ 1) (hk₂ : ds₂.length * E ≤ 1) {o : Op} (ho : OpFits o n)
    (hc : ∀ p ∈ o.terms, ‖p.coef‖ ≤ 4) {C : ℝ} (hC : C = (o.terms.map fun p => ‖p.coef‖).sum)
    (hΩ : ((1 : ℝ) + u) ^ (o.terms.length * 2 ^ (n - 1) + 9) * (C * 8 + 240 * ((2 ^ (n - 1) : ℕ) : ℝ) * η * (o.terms.length + C)) ≤ Ω)
    (m₁ m₂ m₁' m₂' : U64 → Cx F) (hm₁ : stateNorm (2 ^ n) (fun j => cval val (m₁ j)) ≤ 1) (hm₂ : stateNorm (2 ^ n) (fun j => cval val (m₂ j)) ≤ 1)
    (hr₁ : GatesRunF lib L n gs₁ m₁ m₁') (hr₂ : GatesRunF lib L n gs₂ m₂ m₂') :
    WithinC val (o.TransitionF lib n n m₁' m₂')
      (inner (2 ^ n) (exactRun ds₁ fun j => cval val (m₁ j)) (sumOperator o.terms (exactRun ds₂ fun j => cval val (m₂ j))))
      (C * ((ds₁.length + 2 * ds₂.length) * E) + transErr u η o.terms.length (2 ^ (n - 1)) C 8) := by
  have hn : n ≤ 63 := by have := hf.qubits; omega
  have hu0 := A.u_nonneg
  have hη0 := A.eta_nonneg
  have hw0 := A.w_nonneg
  have hC0 : 0 ≤ C := hC ▸ List.sum_nonneg (by simp)
  have l : ∀ d ∈ ds₁, d ∈ ds₁ ++ ds₂ := fun d h => List.mem_append_left _ h
  have r : ∀ d ∈ ds₂, d ∈ ds₁ ++ ds₂ := fun d h => List.mem_append_right _ h
  have facts : ∀ {ds : List GateDesc} {gs : List UGate}, List.Forall₂ (fun d g => GateDesc.build d = .ok g) ds gs → (∀ d ∈ ds, d ∈ ds₁ ++ ds₂) →
      ds.length * E ≤ 1 → ∀ m m' : U64 → Cx F, stateNorm (2 ^ n) (fun j => cval val (m j)) ≤ 1 → GatesRunF lib L n gs m m' →
      ‖vec n (fun j => cval val (m' j)) - vec n (exactRun ds fun j => cval val (m j))‖ ≤ ds.length * E ∧ ‖vec n fun j => cval val (m' j)‖ ≤ 2 ∧
      ‖vec n (exactRun ds fun j => cval val (m j))‖ ≤ 1 ∧ normSq (2 ^ n) (fun j => cval val (m' j)) ≤ 4 ∧
      ∀ j : U64, j.toNat < 2 ^ n → ‖cval val (m' j)‖ ≤ 2 := by
    intro ds gs hb sub hk m m' hm hr
    obtain ⟨m₁, h1, -, h2⟩ := C67_circuit A hε (by linarith) hb (fun d h => hd d (sub d h)) (fun d h => hu d (sub d h)) hf (fun d h => hq d (sub d h))
      (fun d h => hK d (sub d h)) hKε hKΩ hE hk m hm
    cases gatesRunF_unique hr h1
    have hφ := (exactRun_norm hn hb (fun d h => ⟨(hd d (sub d h)).args, hu d (sub d h), hq d (sub d h)⟩) (fun j => cval val (m j))).trans_le hm
    exact computed_facts hn hk hφ h2
  obtain ⟨a1, a2, a3, a4, a5⟩ := facts hb₁ l hk₁ m₁ m₁' hm₁ hr₁
  obtain ⟨b1, b2, b3, b4, b5⟩ := facts hb₂ r hk₂ m₂ m₂' hm₂ hr₂
  have hS8 : normSq (2 ^ n) (fun j => cval val (m₁' j)) + normSq (2 ^ n) (fun j => cval val (m₂' j)) ≤ 8 := by linarith
  obtain ⟨hex, hall⟩ := C98_transition A Z (by linarith) (by linarith) hn1 (by omega) a5 b5 ho hc hC rfl (by
    refine le_trans (mul_le_mul_of_nonneg_left (add_le_add (mul_le_mul_of_nonneg_left hS8 hC0) le_rfl) (by positivity)) hΩ)
  refine ⟨hex, fun r hr => ?_⟩
  obtain ⟨s, hs, hre, him⟩ := hall r hr
  have hdiff := trans_diff hn (opFits_x ho) (fun j => cval val (m₁' j)) (exactRun ds₁ fun j => cval val (m₁ j)) (fun j => cval val (m₂' j))
    (exactRun ds₂ fun j => cval val (m₂ j))
  rw [← hC] at hdiff
  have hbound : ‖vec n fun j => cval val (m₁' j)‖ * ‖vec n (fun j => cval val (m₂' j)) - vec n (exactRun ds₂ fun j => cval val (m₂ j))‖ +
      ‖vec n (fun j => cval val (m₁' j)) - vec n (exactRun ds₁ fun j => cval val (m₁ j))‖ * ‖vec n (exactRun ds₂ fun j => cval val (m₂ j))‖ ≤
      (ds₁.length + 2 * ds₂.length) * E := by
    have q1 := mul_le_mul a2 b1 (norm_nonneg _) (by norm_num)
    have q2 := mul_le_mul a1 b3 (norm_nonneg _) ((norm_nonneg _).trans a1)
    linarith
  have hdiff' := hdiff.trans (mul_le_mul_of_nonneg_left hbound hC0)
  rw [sumOperator_eq] at hre him
  rw [sumOperator_eq]
  have hmono := transErr_mono (η := η) hu0 (T := o.terms.length) (N := 2 ^ (n - 1)) hC0 hS8
  generalize inner (2 ^ n) (fun j => cval val (m₁' j)) (OpAct o.terms fun j => cval val (m₂' j)) = v at *
  generalize inner (2 ^ n) (exactRun ds₁ fun j => cval val (m₁ j)) (OpAct o.terms (exactRun ds₂ fun j => cval val (m₂ j))) = v' at *
  have e1 := (Complex.abs_re_le_norm (v - v')).trans hdiff'
  have e2 := (Complex.abs_im_le_norm (v - v')).trans hdiff'
  rw [Complex.sub_re] at e1
  rw [Complex.sub_im] at e2
  refine ⟨s, hs, ?_, ?_⟩
  · have := abs_sub_le (val s.re) v.re v'.re; linarith
  · have := abs_sub_le (val s.im) v.im v'.im; linarith

end

/-! ## exact arithmetic -/

theorem transItemF_exact (dim : Nat) (bra ket : U64 → ℂ) (p : PauliOp) (i : U64) : transItemF exactLib dim bra ket p i = transItem dim bra ket p i := by
  unfold transItemF transItem
  simp only [conjC_exact, castC_exact, phase90F_exact]

theorem map_range_exact {R T : Type} [AddCommMonoid R] {N : Nat} {f : U64 → Res R} {g : R → T} {v : T} (h : (reduceSum N f).map g = .ok v) (r : Res T) :
    (∃ s : Res R, RangeReduction N f s ∧ r = s.map g) ↔ r = .ok v := by
  cases hr : reduceSum N f with
  | error e => rw [hr] at h; cases h
  | ok P =>
    rw [hr] at h
    constructor
    · rintro ⟨s, hs, rfl⟩
      rw [(rangeReduction_exact' hr s).1 hs]
      exact h
    · rintro rfl
      exact ⟨_, (rangeReduction_exact' hr _).2 rfl, h.symm⟩

/-- **C98, exact numbers.** With exact arithmetic the outcome is the one of the sequential models. -/
theorem C98_exact {n : Nat} (hn1 : 1 ≤ n) (hn : n ≤ 64) (bra ket : U64 → ℂ) :
    (∀ o, OpFits o n → ∀ n' r, Op.TransitionF exactLib o n n' bra ket r ↔ r = o.transition n n' bra ket) ∧
    (∀ p, PauliFits p n → ∀ r, p.ExpectationF exactLib (2 ^ n) bra r ↔ r = p.expectation (2 ^ n) bra) ∧
    (∀ p, PauliFits p n → ∀ r, p.TransitionF exactLib (2 ^ n) (2 ^ n) bra ket r ↔ r = p.transition (2 ^ n) (2 ^ n) bra ket) := by
  refine ⟨fun o ho n' r => ?_, fun p hp r => ?_, fun p hp r => ?_⟩
  · by_cases h : n = n'
    · subst h
      rw [(C26_values_partial o hn1 hn ho).2.1]
      have e := opTransition_spec o hn1 hn (opFits_x ho) bra ket
      unfold Op.TransitionF Op.TransitionSumF
      rw [if_neg (fun h => h rfl)]
      have hitem' : ∀ w : PauliOp × Nat, ∃ x, w ∈ termRange o.terms (2 ^ n >>> 1) → transItem (2 ^ n) bra ket w.1 (BitVec.ofNat 64 w.2) = .ok x := by
        intro w
        by_cases h : w ∈ termRange o.terms (2 ^ n >>> 1)
        · obtain ⟨h1, h2⟩ := mem_termRange.1 h
          obtain ⟨g, hg, -⟩ := transItem_sum w.1 hn1 hn (opFits_x ho _ h1) bra ket
          exact ⟨_, fun _ => hg _ h2⟩
        · exact ⟨0, fun h' => absurd h' h⟩
      choose g hg using hitem'
      rw [reducePairs_ok hg] at e
      rw [reduction_ok (g := g) (fun w hw => by rw [transItemF_exact]; exact hg w hw), sumOperator_eq, ← e]
      constructor
      · rintro ⟨s, rfl, hs⟩
        rw [reducesTo_exact.1 hs]
      · rintro rfl
        exact ⟨_, rfl, reducesTo_exact.2 rfl⟩
    · unfold Op.TransitionF Op.transition
      rw [if_pos h, if_pos h]
  · have h := expectation_spec p hn (fits_masks hp).1 bra
    rw [h]
    rw [pauliExpectation_exact] at h
    exact map_range_exact h r
  · have h := transition_spec p hn (fits_masks hp).1 bra ket
    rw [h]
    rw [pauliTransition_exact] at h
    exact map_range_exact h r

/-! ## sizes of Pauli readings -/

theorem mapM_fault {α R : Type} {f : α → Res R} : ∀ {l : List α} {a : α} {e : Fault}, a ∈ l → f a = .error e → ∀ xs, l.mapM f ≠ .ok xs := by
  intro l
  induction l with
  | nil => intro a e h; cases h
  | cons b l ih =>
    intro a e h he xs hxs
    rw [List.mapM_cons] at hxs
    obtain ⟨y, hy, hxs⟩ := bind_ok hxs
    obtain ⟨ys, hys, -⟩ := bind_ok hxs
    rcases List.mem_cons.1 h with rfl | h
    · rw [he] at hy; cases hy
    · exact ih h he ys hys

/-- **C98, sizes are not compared by Pauli operators.** With a ket of fewer qubits than the bra, `PauliOperator::get_transition_amplitude` reads
past the end of the ket: every outcome is undefined behaviour. -/
theorem C98_pauli_sizes_unchecked {F : Type} [_root_.Zero F] [One F] [Add F] [Sub F] [Mul F] [Neg F] {lib : FloatLib F} (p : PauliOp) (hp : p.x = 0)
    {n n' : Nat} (hn : n ≤ 63) (h : n' < n) (bra ket : U64 → Cx F) (r : Res (Cx F)) (hr : p.TransitionF lib (2 ^ n) (2 ^ n') bra ket r) :
    ∃ m, r = .error (.ub m) := by
  have hlt : (2 : ℕ) ^ n' < 2 ^ n := Nat.pow_lt_pow_right (by norm_num) h
  have hle : (2 : ℕ) ^ n ≤ 2 ^ 63 := Nat.pow_le_pow_right (by norm_num) hn
  have toNat : ∀ i < 2 ^ n, (BitVec.ofNat 64 i).toNat = i := fun i hi => by
    rw [BitVec.toNat_ofNat, Nat.mod_eq_of_lt (by omega)]
  obtain ⟨s, hs, rfl⟩ := hr
  rw [if_pos hp] at hs
  have item : ∀ i < 2 ^ n, pauliTransItemF (2 ^ n) (2 ^ n') bra ket p (BitVec.ofNat 64 i) =
      if i < 2 ^ n' then pauliTransItemF (2 ^ n) (2 ^ n) bra ket p (BitVec.ofNat 64 i) else .error (.ub "_raw index out of range") := by
    intro i hi
    unfold pauliTransItemF
    rw [if_pos hp, if_pos hp]
    by_cases h' : i < 2 ^ n'
    · rw [if_pos h', readAt_ok (by rw [toNat i hi]; exact hi), readAt_ok (by rw [toNat i hi]; exact h'), readAt_ok (by rw [toNat i hi]; exact hi)]
    · rw [if_neg h', readAt_ok (by rw [toNat i hi]; exact hi)]
      unfold readAt
      rw [if_neg (by rw [toNat i hi]; exact h')]
      rfl
  cases s with
  | ok x =>
    obtain ⟨xs, hxs, -⟩ := hs
    refine absurd hxs (mapM_fault (a := 2 ^ n') (e := .ub "_raw index out of range") (List.mem_range.2 hlt) ?_ xs)
    rw [item _ hlt, if_neg (lt_irrefl _)]
  | error e =>
    obtain ⟨i, hi, he⟩ := hs
    have hi' := List.mem_range.1 hi
    dsimp only at he
    rw [item i hi'] at he
    by_cases h' : i < 2 ^ n'
    · rw [if_pos h'] at he
      unfold pauliTransItemF at he
      rw [if_pos hp, readAt_ok (by rw [toNat i hi']; exact hi'), readAt_ok (by rw [toNat i hi']; exact hi')] at he
      cases he
    · rw [if_neg h'] at he
      cases he
      exact ⟨_, rfl⟩

/-- Such outcomes exist: `Z₀` on a bra of two qubits and a ket of one. -/
example (bra ket : U64 → Cx Bin) :
    PauliOp.TransitionF Bin.lib ⟨1, 0, 1⟩ (2 ^ 2) (2 ^ 1) bra ket (.error (.ub "_raw index out of range")) :=
  ⟨.error (.ub "_raw index out of range"), ⟨2, List.mem_range.2 (by norm_num), rfl⟩, rfl⟩

/-! ## examples -/

theorem sampleObservable_fits : OpFits sampleObservable 2 := by
  intro p hp
  simp only [sampleObservable, Op.ofTerms, List.mem_cons, List.not_mem_nil, or_false] at hp
  unfold PauliFits
  rcases hp with rfl | rfl <;> (simp only [pauliQubits]; decide)

theorem sampleObservable_norms : (∀ p ∈ sampleObservable.terms, ‖p.coef‖ ≤ 4) ∧ (sampleObservable.terms.map fun p => ‖p.coef‖).sum ≤ 5 / 2 := by
  have n1 : ‖(1 / 2 : ℂ)‖ = 1 / 2 := by simp
  have n2 : ‖(1 + Complex.I : ℂ)‖ ≤ 2 := (norm_add_le _ _).trans (by simp; norm_num)
  constructor
  · intro p hp
    simp only [sampleObservable, Op.ofTerms, List.mem_cons, List.not_mem_nil, or_false] at hp
    rcases hp with rfl | rfl
    · show ‖(1 / 2 : ℂ)‖ ≤ 4; rw [n1]; norm_num
    · exact n2.trans (by norm_num)
  · show ‖(1 / 2 : ℂ)‖ + (‖(1 + Complex.I : ℂ)‖ + 0) ≤ _
    rw [n1]; linarith

/-- The amplitude of `0.5 Z₀ + (1 + i) X₀ Y₁` between any start state and the state after the sample circuit is computed with an error of at most
`2⁻³⁵`. -/
example : ∃ gs, List.Forall₂ (fun d g => GateDesc.build d = .ok g) sampleGates gs ∧ ∀ m₁ m₂ m₂' : U64 → Cx Bin,
    stateNorm (2 ^ 2) (fun j => cval Bin.val (m₁ j)) ≤ 1 → stateNorm (2 ^ 2) (fun j => cval Bin.val (m₂ j)) ≤ 1 → GatesRunF Bin.lib 8 2 gs m₂ m₂' →
      WithinC Bin.val (sampleObservable.TransitionF Bin.lib 2 2 m₁ m₂')
        (inner (2 ^ 2) (fun j => cval Bin.val (m₁ j)) (sumOperator sampleObservable.terms (exactRun sampleGates fun j => cval Bin.val (m₂ j)))) (2⁻¹ ^ 35) := by
  obtain ⟨gs, hb⟩ := sampleGates_built
  refine ⟨gs, hb, fun m₁ m₂ m₂' hm₁ hm₂ hr => ?_⟩
  have hf : Fits 8 1 2 := ⟨Or.inr ⟨3, by norm_num, by norm_num⟩, by norm_num, by norm_num⟩
  have F := sampleGates_facts
  have hl : sampleGates.length = 3 := rfl
  have hT : sampleObservable.terms.length = 2 := rfl
  have hC := sampleObservable_norms.2
  have hC0 : 0 ≤ (sampleObservable.terms.map fun p => ‖p.coef‖).sum := List.sum_nonneg (by simp)
  obtain ⟨h1, h2⟩ := C98_circuit_transition (Bin.accurate le_rfl) (bin_addZero 64) (ε := 2⁻¹ ^ 50) (by norm_num) (by norm_num) (ds₁ := []) .nil hb
    (fun d h => (F d h).1) (fun d h => (F d h).2.1) (by norm_num) hf (fun d h => (F d h).2.2.2) (K := 1) (fun d h => (F d h).2.2.1) (by norm_num)
    (by norm_num) rfl (by norm_num) (by rw [hl]; norm_num) sampleObservable_fits sampleObservable_norms.1 rfl (by
      rw [hT]
      have : ((1 : ℝ) + 2⁻¹ ^ 53) ^ (2 * 2 ^ (2 - 1) + 9) ≤ 2 := by norm_num
      have h0 : (0 : ℝ) ≤ (1 + 2⁻¹ ^ 53) ^ (2 * 2 ^ (2 - 1) + 9) := by positivity
      generalize ((1 : ℝ) + 2⁻¹ ^ 53) ^ (2 * 2 ^ (2 - 1) + 9) = t at *
      nlinarith) m₁ m₂ m₁ m₂' hm₁ hm₂ rfl hr
  refine ⟨h1, fun r h => ?_⟩
  obtain ⟨s, hs, he, he'⟩ := h2 r h
  have hbound : (sampleObservable.terms.map fun p => ‖p.coef‖).sum *
      (((([] : List GateDesc).length : ℝ) + 2 * (sampleGates.length : ℝ)) * (256 * 1 ^ 2 * (2 * 2⁻¹ ^ 50 + 0 * √((2 ^ 2 : ℕ) : ℝ)))) +
      transErr (2⁻¹ ^ 53) 0 sampleObservable.terms.length (2 ^ (2 - 1)) (sampleObservable.terms.map fun p => ‖p.coef‖).sum 8 ≤ 2⁻¹ ^ 35 := by
    rw [hT, hl]
    unfold transErr
    generalize (sampleObservable.terms.map fun p => ‖p.coef‖).sum = C at *
    norm_num
    linarith
  exact ⟨s, hs, he.trans hbound, he'.trans hbound⟩

/-- For states of norm at most one both readings of the Pauli operator `(1 + i) X₀ Y₁` are computed with an error of at most `2⁻⁴⁰`. -/
example (bra ket : U64 → Cx Bin) (hb : stateNorm (2 ^ 2) (fun j => cval Bin.val (bra j)) ≤ 1) (hk : stateNorm (2 ^ 2) (fun j => cval Bin.val (ket j)) ≤ 1) :
    WithinC Bin.val (PauliOp.ExpectationF Bin.lib ⟨1 + Complex.I, 3, 2⟩ (2 ^ 2) ket)
      (inner (2 ^ 2) (fun j => cval Bin.val (ket j)) (pauliOperator ⟨1 + Complex.I, 3, 2⟩ fun j => cval Bin.val (ket j))) (2⁻¹ ^ 40) ∧
    WithinC Bin.val (PauliOp.TransitionF Bin.lib ⟨1 + Complex.I, 3, 2⟩ (2 ^ 2) (2 ^ 2) bra ket)
      (inner (2 ^ 2) (fun j => cval Bin.val (bra j)) (pauliOperator ⟨1 + Complex.I, 3, 2⟩ fun j => cval Bin.val (ket j))) (2⁻¹ ^ 40) := by
  have fits : PauliFits ⟨1 + Complex.I, 3, 2⟩ 2 := by unfold PauliFits; simp only [pauliQubits]; decide
  have n2 : ‖(1 + Complex.I : ℂ)‖ ≤ 2 := (norm_add_le _ _).trans (by simp; norm_num)
  have n0 := norm_nonneg (1 + Complex.I : ℂ)
  have nonneg : ∀ m : U64 → ℂ, 0 ≤ normSq (2 ^ 2) m := fun m => Finset.sum_nonneg fun _ _ => Complex.normSq_nonneg _
  have sq : ∀ m : U64 → ℂ, stateNorm (2 ^ 2) m ≤ 1 → normSq (2 ^ 2) m ≤ 1 ∧ ∀ j : U64, j.toNat < 2 ^ 2 → ‖m j‖ ≤ 1 := by
    intro m hm
    have h1 : normSq (2 ^ 2) m ≤ 1 := by
      have := Real.sqrt_le_one.1 hm
      exact this
    refine ⟨h1, fun j hj => ?_⟩
    have h2 : Complex.normSq (m j) ≤ normSq (2 ^ 2) m :=
      Finset.single_le_sum (f := fun j => Complex.normSq (m j)) (fun _ _ => Complex.normSq_nonneg _) ((mem_indices (by norm_num)).2 hj)
    rw [Complex.normSq_eq_norm_sq] at h2
    nlinarith [norm_nonneg (m j)]
  obtain ⟨b1, b2⟩ := sq _ hb
  obtain ⟨k1, k2⟩ := sq _ hk
  have hR : ∀ S : ℝ, 0 ≤ S → S ≤ 2 → ((1 : ℝ) + 2⁻¹ ^ 53) ^ (2 ^ 2 + 9) * ((1 + ‖(1 + Complex.I : ℂ)‖) * S +
      100 * (((2 ^ 2 : ℕ) : ℝ) + 1) * 0 * (1 + ‖(1 + Complex.I : ℂ)‖) * (1 + S)) ≤ 64 := by
    intro S h0 h2
    have : ((1 : ℝ) + 2⁻¹ ^ 53) ^ (2 ^ 2 + 9) ≤ 2 := by norm_num
    have h0' : (0 : ℝ) ≤ (1 + 2⁻¹ ^ 53) ^ (2 ^ 2 + 9) := by positivity
    generalize ((1 : ℝ) + 2⁻¹ ^ 53) ^ (2 ^ 2 + 9) = t at *
    have h3 : (1 + ‖(1 + Complex.I : ℂ)‖) * S ≤ 6 := by nlinarith
    have h4 : 0 ≤ (1 + ‖(1 + Complex.I : ℂ)‖) * S := by positivity
    rw [mul_zero, zero_mul, zero_mul, add_zero]
    nlinarith
  have hE : ∀ S : ℝ, 0 ≤ S → S ≤ 2 → pauliErr (2⁻¹ ^ 53) 0 (2 ^ 2) ‖(1 + Complex.I : ℂ)‖ S ≤ 2⁻¹ ^ 40 := by
    intro S h0 h2
    unfold pauliErr
    rw [mul_zero, zero_mul, zero_mul, zero_mul, add_zero]
    have h3 : ‖(1 + Complex.I : ℂ)‖ * S ≤ 4 := by nlinarith
    calc _ ≤ (((1 : ℝ) + 2⁻¹ ^ 53) ^ (2 ^ 2 + 8) - 1) * 4 := mul_le_mul_of_nonneg_left h3 (by norm_num)
      _ ≤ _ := by norm_num
  constructor
  · obtain ⟨h1, h2⟩ := C98_pauli_expectation (Bin.accurate (Ω := 64) le_rfl) (bin_addZero 64) (by norm_num) (by norm_num) (by norm_num)
      (fun j hj => (k2 j hj).trans (by norm_num)) fits (n2.trans (by norm_num)) rfl (hR _ (nonneg _) (by linarith))
    have e := hE _ (nonneg fun j => cval Bin.val (ket j)) (by linarith)
    refine ⟨h1, fun r h => ?_⟩
    obtain ⟨s, hs, he, he'⟩ := h2 r h
    exact ⟨s, hs, he.trans e, he'.trans e⟩
  · have s0 := add_nonneg (nonneg fun j => cval Bin.val (bra j)) (nonneg fun j => cval Bin.val (ket j))
    obtain ⟨h1, h2⟩ := C98_pauli_transition (Bin.accurate (Ω := 64) le_rfl) (bin_addZero 64) (by norm_num) (by norm_num) (by norm_num)
      (fun j hj => (b2 j hj).trans (by norm_num)) (fun j hj => (k2 j hj).trans (by norm_num)) fits (n2.trans (by norm_num)) rfl (hR _ s0 (by linarith))
    have e := hE _ s0 (by linarith)
    refine ⟨h1, fun r h => ?_⟩
    obtain ⟨s, hs, he, he'⟩ := h2 r h
    exact ⟨s, hs, he.trans e, he'.trans e⟩

/-- Batches: with `B` pairs of states of squared norm at most one every result is within `2⁻⁴⁰`. -/
example (B : Nat) (bra ket : Nat → U64 → Cx Bin) (hb : ∀ b < B, ∀ j : U64, j.toNat < 2 ^ 2 → ‖cval Bin.val (bra b j)‖ ≤ 1)
    (hk : ∀ b < B, ∀ j : U64, j.toNat < 2 ^ 2 → ‖cval Bin.val (ket b j)‖ ≤ 1)
    (hS : ∀ b < B, normSq (2 ^ 2) (fun j => cval Bin.val (bra b j)) + normSq (2 ^ 2) (fun j => cval Bin.val (ket b j)) ≤ 2) :
    ∃ e : Nat → ℝ, (∀ b < B, e b ≤ 2⁻¹ ^ 40) ∧ WithinEach Bin.val B (sampleObservable.TransitionBatchedF Bin.lib 2 2 B B bra ket)
      (fun b => inner (2 ^ 2) (fun j => cval Bin.val (bra b j)) (sumOperator sampleObservable.terms fun j => cval Bin.val (ket b j))) e := by
  have hT : sampleObservable.terms.length = 2 := rfl
  have hC := sampleObservable_norms.2
  have hC0 : 0 ≤ (sampleObservable.terms.map fun p => ‖p.coef‖).sum := List.sum_nonneg (by simp)
  have nonneg : ∀ m : U64 → ℂ, 0 ≤ normSq (2 ^ 2) m := fun m => Finset.sum_nonneg fun _ _ => Complex.normSq_nonneg _
  have s0 := fun b => add_nonneg (nonneg fun j => cval Bin.val (bra b j)) (nonneg fun j => cval Bin.val (ket b j))
  refine ⟨_, fun b h => ?_, C98_transition_batched (Bin.accurate (Ω := 64) le_rfl) (bin_addZero 64) (by norm_num) (by norm_num) (by norm_num) (by norm_num)
    (fun b h j hj => (hb b h j hj).trans (by norm_num)) (fun b h j hj => (hk b h j hj).trans (by norm_num)) sampleObservable_fits sampleObservable_norms.1 rfl
    (S := fun b => normSq (2 ^ 2) (fun j => cval Bin.val (bra b j)) + normSq (2 ^ 2) fun j => cval Bin.val (ket b j)) (fun _ _ => rfl) (fun b h => ?_)⟩
  · rw [hT]
    unfold transErr
    have h1 := hS b h
    have h2 := s0 b
    generalize normSq (2 ^ 2) (fun j => cval Bin.val (bra b j)) + normSq (2 ^ 2) (fun j => cval Bin.val (ket b j)) = S at *
    generalize (sampleObservable.terms.map fun p => ‖p.coef‖).sum = C at *
    rw [mul_zero, zero_mul, zero_mul, add_zero]
    have h3 : C * S ≤ 5 := by nlinarith
    calc _ ≤ (((1 : ℝ) + 2⁻¹ ^ 53) ^ (2 * 2 ^ (2 - 1) + 8) - 1) * 5 := mul_le_mul_of_nonneg_left h3 (by norm_num)
      _ ≤ _ := by norm_num
  · rw [hT]
    have h1 := hS b h
    have h2 := s0 b
    generalize normSq (2 ^ 2) (fun j => cval Bin.val (bra b j)) + normSq (2 ^ 2) (fun j => cval Bin.val (ket b j)) = S at *
    generalize (sampleObservable.terms.map fun p => ‖p.coef‖).sum = C at *
    have : ((1 : ℝ) + 2⁻¹ ^ 53) ^ (2 * 2 ^ (2 - 1) + 9) ≤ 2 := by norm_num
    have h0 : (0 : ℝ) ≤ (1 + 2⁻¹ ^ 53) ^ (2 * 2 ^ (2 - 1) + 9) := by positivity
    generalize ((1 : ℝ) + 2⁻¹ ^ 53) ^ (2 * 2 ^ (2 - 1) + 9) = t at *
    have h3 : C * S ≤ 5 := by nlinarith
    have h4 : 0 ≤ C * S := by positivity
    rw [mul_zero, zero_mul, add_zero]
    nlinarith

end Verif.Props
