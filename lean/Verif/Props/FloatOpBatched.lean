import Verif.Model.FloatOpBatched
import Verif.Proofs.OperatorBatched
import Verif.Props.FloatTransition
import Verif.Props.Operator
import Verif.Props.OperatorBatched

/-! # C99: readings of batched operators, and of the single terms of an operator, in floating-point arithmetic

The functions of `Model/FloatOpBatched.lean` are relations between states and the outcomes of parallel reductions, as in C72 and C98.
-/

namespace Verif.Props
open Verif Verif.Spec Verif.Model Verif.Proofs
attribute [-simp] BitVec.getLsbD_eq_getElem

section
variable {F : Type} [_root_.Zero F] [One F] [Add F] [Sub F] [Mul F] [Neg F] {lib : FloatLib F} {val : F → ℝ} {u w η Ω : ℝ}

/-- Every outcome is a list of one number for every entry of `l`, the `b`-th within `e b l[b]` of `v b l[b]` in each part, and there is an
outcome. -/
def WithinList {α : Type} (val : F → ℝ) (l : List α) (Out : Res (List (Cx F)) → Prop) (v : Nat → α → ℂ) (e : Nat → α → ℝ) : Prop :=
  (∃ r, Out r) ∧ ∀ r, Out r → ∃ xs, r = .ok xs ∧ ∃ h : xs.length = l.length,
    ∀ b (hb : b < l.length), |val xs[b].re - (v b l[b]).re| ≤ e b l[b] ∧ |val xs[b].im - (v b l[b]).im| ≤ e b l[b]

/-- the sum of the magnitudes of the coefficients -/
noncomputable def coefTotal (ts : List PauliOp) : ℝ := (ts.map fun p => ‖p.coef‖).sum

theorem withinList_perSlot {α : Type} {l : List α} {B : Nat} (hB : B = l.length) {Out : Nat → Res (Cx F) → Prop} {v : Nat → α → ℂ} {e : Nat → α → ℝ}
    (h : ∀ b (hb : b < l.length), WithinC val (Out b) (v b l[b]) (e b l[b])) : WithinList val l (PerSlotF B Out) v e := by
  subst hB
  constructor
  · have hex : ∀ b : Fin l.length, ∃ s, Out b.val (.ok s) := by
      intro b
      obtain ⟨⟨r, hr⟩, h2⟩ := h b.val b.isLt
      obtain ⟨s, rfl, -⟩ := h2 r hr
      exact ⟨s, hr⟩
    choose f hf using hex
    refine ⟨.ok (List.ofFn f), by simp, fun b => ?_⟩
    rw [List.getElem_ofFn]
    exact hf b
  · intro r hr
    cases r with
    | error er =>
      obtain ⟨b, hb⟩ := hr
      obtain ⟨s, hs, -⟩ := (h b.val b.isLt).2 _ hb
      cases hs
    | ok xs =>
      obtain ⟨hl, hb⟩ := hr
      refine ⟨xs, rfl, hl, fun b hb' => ?_⟩
      obtain ⟨s, hs, h1⟩ := (h b hb').2 _ (hb ⟨b, hb'⟩)
      cases hs
      exact h1

theorem withinC_iff {Out Out' : Res (Cx F) → Prop} {v : ℂ} {e : ℝ} (h : ∀ r, Out r ↔ Out' r) (h' : WithinC val Out' v e) : WithinC val Out v e := by
  obtain rfl : Out = Out' := funext fun r => propext (h r)
  exact h'

theorem team_iff {R : Type} [_root_.Zero R] [Add R] [Sub R] [Mul R] [Neg R] [Cplx R F] (l : List (List PauliOp)) (dim : Nat) (bra ket : Nat → U64 → R)
    {b : Nat} (hb : b < l.length) (r : Res R) :
    (OpB.ofLists l).TeamF lib dim bra ket b r ↔ Op.TransitionSumF lib ⟨l[b], true, false⟩ dim (bra b) (ket b) r := by
  have hs := slots_ofLists l
  unfold OpB.TeamF
  constructor
  · rintro ⟨h, hr⟩
    rw [hs.subview ⟨b, h⟩] at hr
    exact hr
  · intro hr
    have h : b < (OpB.ofLists l).batchSize := by rw [hs.size]; exact hb
    refine ⟨h, ?_⟩
    rw [hs.subview ⟨b, h⟩]
    exact hr

theorem within_teams (A : Accurate lib val u w η Ω) (Z : AddZero val Ω) (hu : u ≤ 1 / 64) (hη : η ≤ 1 / 1000) {n : Nat} (hn1 : 1 ≤ n) (hn : n ≤ 64)
    {l : List (List PauliOp)} (hl : ∀ ts ∈ l, ∀ p ∈ ts, PauliFits p n ∧ ‖p.coef‖ ≤ 4) {bra ket : Nat → U64 → Cx F}
    (hb : ∀ b < l.length, ∀ j : U64, j.toNat < 2 ^ n → ‖cval val (bra b j)‖ ≤ 2) (hk : ∀ b < l.length, ∀ j : U64, j.toNat < 2 ^ n → ‖cval val (ket b j)‖ ≤ 2)
    {S : Nat → ℝ} (hS : ∀ b < l.length, S b = normSq (2 ^ n) (fun j => cval val (bra b j)) + normSq (2 ^ n) fun j => cval val (ket b j))
    (hΩ : ∀ b (h : b < l.length), ((1 : ℝ) + u) ^ (l[b].length * 2 ^ (n - 1) + 9) *
      (coefTotal l[b] * S b + 240 * ((2 ^ (n - 1) : ℕ) : ℝ) * η * (l[b].length + coefTotal l[b])) ≤ Ω) :
    WithinList val l (PerSlotF (OpB.ofLists l).batchSize ((OpB.ofLists l).TeamF lib (2 ^ n) bra ket))
      (fun b ts => inner (2 ^ n) (fun j => cval val (bra b j)) (sumOperator ts fun j => cval val (ket b j)))
      (fun b ts => transErr u η ts.length (2 ^ (n - 1)) (coefTotal ts) (S b)) := by
  refine withinList_perSlot (slots_ofLists l).size fun b h => withinC_iff (team_iff l _ _ _ h) ?_
  have hm := List.getElem_mem h
  exact within_transition A Z hu hη hn1 hn (hb b h) (hk b h) (o := ⟨l[b], true, false⟩) (fun p hp => (hl _ hm p hp).1) (fun p hp => (hl _ hm p hp).2) rfl
    (hS b h) (hΩ b h)

/-- **C99, transition amplitudes of batched operators.** For batches of as many states as there are operators, the `b`-th result is
`⟨bra_b|O_b|ket_b⟩` up to `transErr` in each part, whatever the order of the additions. -/
theorem C99_transition_batched (A : Accurate lib val u w η Ω) (Z : AddZero val Ω) (hu : u ≤ 1 / 64) (hη : η ≤ 1 / 1000) {n : Nat} (hn1 : 1 ≤ n) (hn : n ≤ 64)
    {l : List (List PauliOp)} (hl : ∀ ts ∈ l, ∀ p ∈ ts, PauliFits p n ∧ ‖p.coef‖ ≤ 4) {bra ket : Nat → U64 → Cx F}
    (hb : ∀ b < l.length, ∀ j : U64, j.toNat < 2 ^ n → ‖cval val (bra b j)‖ ≤ 2) (hk : ∀ b < l.length, ∀ j : U64, j.toNat < 2 ^ n → ‖cval val (ket b j)‖ ≤ 2)
    {S : Nat → ℝ} (hS : ∀ b < l.length, S b = normSq (2 ^ n) (fun j => cval val (bra b j)) + normSq (2 ^ n) fun j => cval val (ket b j))
    (hΩ : ∀ b (h : b < l.length), ((1 : ℝ) + u) ^ (l[b].length * 2 ^ (n - 1) + 9) *
      (coefTotal l[b] * S b + 240 * ((2 ^ (n - 1) : ℕ) : ℝ) * η * (l[b].length + coefTotal l[b])) ≤ Ω) :
    WithinList val l ((OpB.ofLists l).TransitionBatchedF lib n n l.length l.length bra ket)
      (fun b ts => inner (2 ^ n) (fun j => cval val (bra b j)) (sumOperator ts fun j => cval val (ket b j)))
      (fun b ts => transErr u η ts.length (2 ^ (n - 1)) (coefTotal ts) (S b)) := by
  have h := within_teams A Z hu hη hn1 hn hl hb hk hS hΩ
  unfold OpB.TransitionBatchedF
  simp only [ne_eq, not_true_eq_false, if_false, (slots_ofLists l).size]
  rw [(slots_ofLists l).size] at h
  exact h

/-- **C99, transition amplitudes of batched operators between two states.** -/
theorem C99_transition (A : Accurate lib val u w η Ω) (Z : AddZero val Ω) (hu : u ≤ 1 / 64) (hη : η ≤ 1 / 1000) {n : Nat} (hn1 : 1 ≤ n) (hn : n ≤ 64)
    {l : List (List PauliOp)} (hl : ∀ ts ∈ l, ∀ p ∈ ts, PauliFits p n ∧ ‖p.coef‖ ≤ 4) {bra ket : U64 → Cx F}
    (hb : ∀ j : U64, j.toNat < 2 ^ n → ‖cval val (bra j)‖ ≤ 2) (hk : ∀ j : U64, j.toNat < 2 ^ n → ‖cval val (ket j)‖ ≤ 2)
    {S : ℝ} (hS : S = normSq (2 ^ n) (fun j => cval val (bra j)) + normSq (2 ^ n) fun j => cval val (ket j))
    (hΩ : ∀ ts ∈ l, ((1 : ℝ) + u) ^ (ts.length * 2 ^ (n - 1) + 9) *
      (coefTotal ts * S + 240 * ((2 ^ (n - 1) : ℕ) : ℝ) * η * (ts.length + coefTotal ts)) ≤ Ω) :
    WithinList val l ((OpB.ofLists l).TransitionF lib n n bra ket)
      (fun _ ts => inner (2 ^ n) (fun j => cval val (bra j)) (sumOperator ts fun j => cval val (ket j)))
      (fun _ ts => transErr u η ts.length (2 ^ (n - 1)) (coefTotal ts) S) := by
  have h := within_teams A Z hu hη hn1 hn hl (fun _ _ => hb) (fun _ _ => hk) (S := fun _ => S) (fun _ _ => hS)
    (fun b h => hΩ _ (List.getElem_mem h))
  unfold OpB.TransitionF
  simp only [ne_eq, not_true_eq_false, if_false]
  exact h

/-- **C99, expectation values of batched operators.** For a batch of as many states as there are operators, the `b`-th result is `⟨ψ_b|O_b|ψ_b⟩`
up to `transErr` in each part: it is computed as a transition amplitude, so the imaginary part of the value of a Hermitian operator need not be
exactly zero. -/
theorem C99_expectation_batched (A : Accurate lib val u w η Ω) (Z : AddZero val Ω) (hu : u ≤ 1 / 64) (hη : η ≤ 1 / 1000) {n : Nat} (hn1 : 1 ≤ n) (hn : n ≤ 64)
    {l : List (List PauliOp)} (hl : ∀ ts ∈ l, ∀ p ∈ ts, PauliFits p n ∧ ‖p.coef‖ ≤ 4) {m : Nat → U64 → Cx F}
    (hm : ∀ b < l.length, ∀ j : U64, j.toNat < 2 ^ n → ‖cval val (m b j)‖ ≤ 2)
    {S : Nat → ℝ} (hS : ∀ b < l.length, S b = normSq (2 ^ n) fun j => cval val (m b j))
    (hΩ : ∀ b (h : b < l.length), ((1 : ℝ) + u) ^ (l[b].length * 2 ^ (n - 1) + 9) *
      (coefTotal l[b] * (2 * S b) + 240 * ((2 ^ (n - 1) : ℕ) : ℝ) * η * (l[b].length + coefTotal l[b])) ≤ Ω) :
    WithinList val l ((OpB.ofLists l).ExpectationBatchedF lib n l.length m)
      (fun b ts => inner (2 ^ n) (fun j => cval val (m b j)) (sumOperator ts fun j => cval val (m b j)))
      (fun b ts => transErr u η ts.length (2 ^ (n - 1)) (coefTotal ts) (2 * S b)) := by
  have h := within_teams A Z hu hη hn1 hn hl hm hm (S := fun b => 2 * S b) (fun b h => by rw [hS b h]; ring) hΩ
  unfold OpB.ExpectationBatchedF
  simp only [ne_eq, not_true_eq_false, if_false, (slots_ofLists l).size]
  rw [(slots_ofLists l).size] at h
  exact h

/-- **C99, expectation values of batched operators in one state.** -/
theorem C99_expectation (A : Accurate lib val u w η Ω) (Z : AddZero val Ω) (hu : u ≤ 1 / 64) (hη : η ≤ 1 / 1000) {n : Nat} (hn1 : 1 ≤ n) (hn : n ≤ 64)
    {l : List (List PauliOp)} (hl : ∀ ts ∈ l, ∀ p ∈ ts, PauliFits p n ∧ ‖p.coef‖ ≤ 4) {m : U64 → Cx F}
    (hm : ∀ j : U64, j.toNat < 2 ^ n → ‖cval val (m j)‖ ≤ 2) {S : ℝ} (hS : S = normSq (2 ^ n) fun j => cval val (m j))
    (hΩ : ∀ ts ∈ l, ((1 : ℝ) + u) ^ (ts.length * 2 ^ (n - 1) + 9) *
      (coefTotal ts * (2 * S) + 240 * ((2 ^ (n - 1) : ℕ) : ℝ) * η * (ts.length + coefTotal ts)) ≤ Ω) :
    WithinList val l ((OpB.ofLists l).ExpectationF lib n m)
      (fun _ ts => inner (2 ^ n) (fun j => cval val (m j)) (sumOperator ts fun j => cval val (m j)))
      (fun _ ts => transErr u η ts.length (2 ^ (n - 1)) (coefTotal ts) (2 * S)) :=
  within_teams A Z hu hη hn1 hn hl (fun _ _ => hm) (fun _ _ => hm) (S := fun _ => 2 * S) (fun _ _ => by rw [hS]; ring)
    (fun b h => hΩ _ (List.getElem_mem h))

/-- **C99, sizes.** States with different numbers of qubits, batches of different sizes, and batches that do not have one state for every operator
are refused with an exception. -/
theorem C99_mismatch (l : List (List PauliOp)) {n n' B B' : Nat} :
    (l.length ≠ B → ∀ (m : Nat → U64 → Cx F) r, (OpB.ofLists l).ExpectationBatchedF lib n B m r ↔
      r = .error (.throw "Operator::get_expectation_value: batch_size of OperatorBatched and StateVectorBatched must be same")) ∧
    (n ≠ n' → ∀ (bra ket : U64 → Cx F) r, (OpB.ofLists l).TransitionF lib n n' bra ket r ↔
      r = .error (.throw "Operator::get_transition_amplitude: n_qubits of state_vector_bra and state_vector_ket must be same")) ∧
    (n ≠ n' → ∀ (bra ket : Nat → U64 → Cx F) r, (OpB.ofLists l).TransitionBatchedF lib n n' B B' bra ket r ↔
      r = .error (.throw "Operator::get_transition_amplitude: n_qubits of states_bra and states_ket must be same")) ∧
    (B ≠ B' → ∀ (bra ket : Nat → U64 → Cx F) r, (OpB.ofLists l).TransitionBatchedF lib n n B B' bra ket r ↔
      r = .error (.throw "Operator::get_transition_amplitude: batch_size of states_bra and states_ket must be same")) ∧
    (l.length ≠ B → ∀ (bra ket : Nat → U64 → Cx F) r, (OpB.ofLists l).TransitionBatchedF lib n n B B bra ket r ↔
      r = .error (.throw "Operator::get_transition_amplitude: batch_size of OperatorBatched and StateVectorBatched must be same")) := by
  have hs := (slots_ofLists l).size
  refine ⟨fun h m r => ?_, fun h bra ket r => ?_, fun h bra ket r => ?_, fun h bra ket r => ?_, fun h bra ket r => ?_⟩
  · unfold OpB.ExpectationBatchedF; rw [hs, if_pos h]
  · unfold OpB.TransitionF; rw [if_pos h]
  · unfold OpB.TransitionBatchedF; rw [if_pos h]
  · unfold OpB.TransitionBatchedF; rw [if_neg (by simp), if_pos h]
  · unfold OpB.TransitionBatchedF; rw [if_neg (by simp), if_neg (by simp), hs, if_pos h]

/-! ## the values of the single terms -/

theorem sumOperator_single (p : PauliOp) (ψ : U64 → ℂ) : sumOperator [p] ψ = pauliOperator p ψ := by
  funext j
  simp [sumOperator]

theorem term_iff {R : Type} [_root_.Zero R] [Add R] [Sub R] [Mul R] [Neg R] [Cplx R F] (o : Op) {n : Nat} (hn1 : 1 ≤ n) (hn : n ≤ 31) (ψ : U64 → R)
    {t : Nat} (ht : t < o.terms.length) (r : Res R) :
    o.TermF lib (2 ^ n) ψ t r ↔ Op.ExpectationF lib ⟨[o.terms[t]], true, false⟩ (2 ^ n) ψ r := by
  have e : (toInt32 (2 ^ n >>> 1)).toNat = 2 ^ n >>> 1 := by
    apply toInt32_small
    rw [Nat.shiftRight_eq_div_pow]
    have : (2 : ℕ) ^ n ≤ 2 ^ 31 := Nat.pow_le_pow_right (by norm_num) hn
    omega
  have e2 : termRange [o.terms[t]] (2 ^ n >>> 1) = (List.range (2 ^ n >>> 1)).map fun i => (o.terms[t], i) := by
    simp [termRange]
  have key : Reduction ((List.range (2 ^ n >>> 1)).map fun i => (o.terms[t], i)) (fun w => expItemF lib (2 ^ n) ψ w.1 (BitVec.ofNat 64 w.2)) r ↔
      RangeReduction (2 ^ n >>> 1) (expItemF lib (2 ^ n) ψ o.terms[t]) r := by
    unfold RangeReduction Reduction
    cases r with
    | ok x =>
      dsimp only
      rw [List.mapM_map]
      rfl
    | error e =>
      dsimp only
      simp
  unfold Op.TermF Op.ExpectationF
  rw [e, e2, key]
  exact ⟨fun ⟨_, h⟩ => h, fun h => ⟨ht, h⟩⟩

/-- **C99, the values of the single terms (partial).** For at most 31 qubits and fewer than `2^31` terms the `t`-th entry of `get_expectation_values`
is the expectation value of the `t`-th term up to `expErr`.  Missing: 32 qubits or more (`C99_counterexample_values`). -/
theorem C99_values_partial (A : Accurate lib val u w η Ω) (Z : AddZero val Ω) (hu : u ≤ 1 / 64) (hη : η ≤ 1 / 1000) {n : Nat} (hn1 : 1 ≤ n) (hn : n ≤ 31)
    {m : U64 → Cx F} (hm : ∀ j : U64, j.toNat < 2 ^ n → ‖cval val (m j)‖ ≤ 4) {o : Op} (ho : OpFits o n) (hl : o.terms.length < 2 ^ 31)
    (hc : ∀ p ∈ o.terms, ‖p.coef‖ ≤ 32) {S : ℝ} (hS : S = normSq (2 ^ n) fun j => cval val (m j))
    (hΩ : ∀ p ∈ o.terms, ((1 : ℝ) + u) ^ (2 ^ (n - 1) + 8) * (‖p.coef‖ * S + 100 * ((2 ^ (n - 1) : ℕ) : ℝ) * η * (1 + ‖p.coef‖)) ≤ Ω) :
    WithinList val o.terms (o.ExpectationValuesF lib n m) (fun _ p => inner (2 ^ n) (fun j => cval val (m j)) (pauliOperator p fun j => cval val (m j)))
      (fun _ p => expErr u η 1 (2 ^ (n - 1)) ‖p.coef‖ S) := by
  have h : WithinList val o.terms (PerSlotF (min o.terms.length (toInt32 o.terms.length).toNat) (o.TermF lib (2 ^ n) m))
      (fun _ p => inner (2 ^ n) (fun j => cval val (m j)) (pauliOperator p fun j => cval val (m j))) (fun _ p => expErr u η 1 (2 ^ (n - 1)) ‖p.coef‖ S) := by
    refine withinList_perSlot (by rw [toInt32_small hl]; simp) fun t ht => withinC_iff (term_iff o hn1 hn m ht) ?_
    have hm' := List.getElem_mem ht
    have := C72_expectation A Z hu hη hn1 (by omega) hm (o := ⟨[o.terms[t]], true, false⟩)
      (fun p hp => by rw [List.mem_singleton.1 hp]; exact ho _ hm') (fun p hp => by rw [List.mem_singleton.1 hp]; exact hc _ hm')
      (C := ‖o.terms[t].coef‖) (by simp) hS (by
        have := hΩ _ hm'
        simpa using this)
    rw [sumOperator_single] at this
    exact this
  obtain ⟨⟨s, hs⟩, h2⟩ := h
  refine ⟨⟨_, s, hs, rfl⟩, ?_⟩
  rintro r ⟨s, hs, rfl⟩
  obtain ⟨xs, rfl, hx, h3⟩ := h2 s hs
  refine ⟨xs, ?_, hx, h3⟩
  simp [Except.map, hx]

/-- **C99, `get_expectation_values` fails at 32 qubits**: whatever the state, every outcome is a list of zeros. -/
theorem C99_counterexample_values (A : Accurate lib val u w η Ω) (Z : AddZero val Ω) {m : U64 → Cx F} {o : Op} (hl : o.terms.length < 2 ^ 31) :
    WithinList val o.terms (o.ExpectationValuesF lib 32 m) (fun _ _ => 0) (fun _ _ => 0) := by
  have h : WithinList val o.terms (PerSlotF (min o.terms.length (toInt32 o.terms.length).toNat) (o.TermF lib (2 ^ 32) m)) (fun _ _ => 0) (fun _ _ => 0) := by
    refine withinList_perSlot (by rw [toInt32_small hl]; simp) fun t ht => ?_
    have h1 : (toInt32 (2 ^ 32 >>> 1)).toNat = 0 := by decide
    have h2 : ∀ r, o.TermF lib (2 ^ 32) m t r ↔ ∃ s, r = .ok s ∧ ReducesTo [] s := by
      intro r
      have h3 := rangeReduction_ok (N := 0) (f := expItemF lib (2 ^ 32) m o.terms[t]) (g := fun _ => (0 : Cx F)) (fun i hi => by omega) r
      unfold Op.TermF
      rw [h1]
      exact ⟨fun ⟨_, h⟩ => h3.1 h, fun h => ⟨ht, h3.2 h⟩⟩
    refine ⟨⟨_, (h2 _).2 ⟨0, rfl, .init⟩⟩, fun r hr => ?_⟩
    obtain ⟨s, rfl, hs⟩ := (h2 _).1 hr
    refine ⟨s, rfl, ?_, ?_⟩
    · rw [reducesTo_nil A Z (reducesTo_re hs) rfl]; simp
    · rw [reducesTo_nil A Z (reducesTo_im hs) rfl]; simp
  obtain ⟨⟨s, hs⟩, h2⟩ := h
  refine ⟨⟨_, s, hs, rfl⟩, ?_⟩
  rintro r ⟨s, hs, rfl⟩
  obtain ⟨xs, rfl, hx, h3⟩ := h2 s hs
  refine ⟨xs, ?_, hx, h3⟩
  simp [Except.map, hx]

/-! ## Pauli operators -/

/-- **C99, expectation values of Pauli operators for batches.** -/
theorem C99_pauli_expectation_batched (A : Accurate lib val u w η Ω) (Z : AddZero val Ω) (hu : u ≤ 1 / 64) (hη : η ≤ 1 / 1000) {n B : Nat} (hn : n ≤ 64)
    {m : Nat → U64 → Cx F} (hm : ∀ b < B, ∀ j : U64, j.toNat < 2 ^ n → ‖cval val (m b j)‖ ≤ 4) {p : PauliOp} (hp : PauliFits p n) (hc : ‖p.coef‖ ≤ 32)
    {S : Nat → ℝ} (hS : ∀ b < B, S b = normSq (2 ^ n) fun j => cval val (m b j))
    (hR : ∀ b < B, (1 + u) ^ (2 ^ n + 9) * ((1 + ‖p.coef‖) * S b + 100 * (((2 ^ n : ℕ) : ℝ) + 1) * η * (1 + ‖p.coef‖) * (1 + S b)) ≤ 64) :
    WithinEach val B (p.ExpectationBatchedF lib (2 ^ n) B m)
      (fun b => inner (2 ^ n) (fun j => cval val (m b j)) (pauliOperator p fun j => cval val (m b j)))
      (fun b => pauliErr u η (2 ^ n) ‖p.coef‖ (S b)) :=
  within_perSlot fun b h => C98_pauli_expectation A Z hu hη hn (hm b h) hp hc (hS b h) (hR b h)

end

/-! ## exact arithmetic -/

theorem perSlotF_exact {R : Type} {B : Nat} {Out : Nat → Res R → Prop} {v : Nat → R} (h : ∀ b < B, ∀ r, Out b r ↔ r = .ok (v b)) (r : Res (List R)) :
    PerSlotF B Out r ↔ r = .ok ((List.range B).map v) := by
  cases r with
  | error e =>
    refine ⟨fun ⟨b, hb⟩ => ?_, fun h => by cases h⟩
    have := (h b.val b.isLt _).1 hb
    cases this
  | ok xs =>
    constructor
    · rintro ⟨hl, hb⟩
      congr 1
      apply List.ext_getElem
      · simp [hl]
      · intro i h1 h2
        have := (h i (by omega) _).1 (hb ⟨i, by omega⟩)
        rw [List.getElem_map, List.getElem_range]
        exact Except.ok.inj this
    · intro e
      obtain rfl := Except.ok.inj e
      refine ⟨by simp, fun b => ?_⟩
      rw [List.getElem_map, List.getElem_range]
      exact (h b.val b.isLt _).2 rfl

/-- **C99, exact numbers.** With exact arithmetic the outcomes are those of the sequential models. -/
theorem C99_exact {n : Nat} (hn1 : 1 ≤ n) (hn : n ≤ 64) (l : List (List PauliOp)) (hl : ∀ ts ∈ l, ∀ p ∈ ts, PauliFits p n) :
    (∀ ψ r, (OpB.ofLists l).ExpectationF exactLib n ψ r ↔ r = (OpB.ofLists l).expectation (2 ^ n) ψ) ∧
    (∀ B ψ r, (OpB.ofLists l).ExpectationBatchedF exactLib n B ψ r ↔ r = (OpB.ofLists l).expectationBatched ⟨n, B, ψ⟩) ∧
    (∀ n' bra ket r, (OpB.ofLists l).TransitionF exactLib n n' bra ket r ↔ r = (OpB.ofLists l).transition n n' bra ket) ∧
    (∀ n' B B' bra ket r, (OpB.ofLists l).TransitionBatchedF exactLib n n' B B' bra ket r ↔
      r = (OpB.ofLists l).transitionBatched ⟨n, B, bra⟩ ⟨n', B', ket⟩) := by
  have hs := (slots_ofLists l).size
  obtain ⟨c1, c2, c3, c4, -⟩ := C55_values_partial l hn1 hn hl
  have key : ∀ (bra ket : Nat → U64 → ℂ) r, PerSlotF (OpB.ofLists l).batchSize ((OpB.ofLists l).TeamF exactLib (2 ^ n) bra ket) r ↔
      r = .ok (l.zipIdx.map fun w => inner (2 ^ n) (bra w.2) (sumOperator w.1 (ket w.2))) := by
    intro bra ket r
    rw [hs, perSlotF_exact (v := fun b => if h : b < l.length then inner (2 ^ n) (bra b) (sumOperator l[b] (ket b)) else 0)]
    · have : (List.range l.length).map (fun b => if h : b < l.length then inner (2 ^ n) (bra b) (sumOperator l[b] (ket b)) else 0) =
          l.zipIdx.map fun w => inner (2 ^ n) (bra w.2) (sumOperator w.1 (ket w.2)) := by
        apply List.ext_getElem
        · simp
        · intro i h1 h2
          have : i < l.length := by simpa using h1
          simp [this]
      rw [this]
    · intro b hb r
      rw [team_iff l _ _ _ hb, dif_pos hb]
      have hfit : OpFits ⟨l[b], true, false⟩ n := hl _ (List.getElem_mem hb)
      have e := (C98_exact hn1 hn (bra b) (ket b)).1 ⟨l[b], true, false⟩ hfit n r
      rw [(C26_values_partial ⟨l[b], true, false⟩ hn1 hn hfit).2.1] at e
      rw [← e]
      unfold Op.TransitionF
      simp only [ne_eq, not_true_eq_false, if_false]
  have drop : ∀ f : List PauliOp → ℂ, (l.zipIdx.map fun w => f w.1) = l.map f := by
    intro f
    apply List.ext_getElem
    · simp
    · intro i h1 h2; simp
  refine ⟨fun ψ r => ?_, fun B ψ r => ?_, fun n' bra ket r => ?_, fun n' B B' bra ket r => ?_⟩
  · rw [c1]
    exact (key (fun _ => ψ) (fun _ => ψ) r).trans (by rw [drop fun ts => inner (2 ^ n) ψ (sumOperator ts ψ)])
  · by_cases h : l.length = B
    · subst h
      rw [c3]
      unfold OpB.ExpectationBatchedF
      rw [if_neg (by rw [hs]; simp)]
      exact key ψ ψ r
    · unfold OpB.ExpectationBatchedF OpB.expectationBatched
      have h' : (OpB.ofLists l).batchSize ≠ B := by rw [hs]; exact h
      rw [if_pos h', if_pos h']
  · by_cases h : n = n'
    · subst h
      rw [c2]
      unfold OpB.TransitionF
      rw [if_neg (by simp)]
      exact (key (fun _ => bra) (fun _ => ket) r).trans (by rw [drop fun ts => inner (2 ^ n) bra (sumOperator ts ket)])
    · unfold OpB.TransitionF OpB.transition
      rw [if_pos h, if_pos h]
  · unfold OpB.TransitionBatchedF
    by_cases h1 : n = n'
    · subst h1
      by_cases h2 : B = B'
      · subst h2
        by_cases h3 : l.length = B
        · subst h3
          rw [c4, if_neg (by simp), if_neg (by simp), if_neg (by rw [hs]; simp)]
          exact key bra ket r
        · unfold OpB.transitionBatched
          rw [if_neg (by simp), if_neg (by simp), if_pos (by rw [hs]; exact h3)]
          dsimp only
          rw [if_neg (by simp), if_neg (by simp), if_pos (by rw [hs]; exact h3)]
      · unfold OpB.transitionBatched
        rw [if_neg (by simp), if_pos h2]
        dsimp only
        rw [if_neg (by simp), if_pos h2]
    · unfold OpB.transitionBatched
      rw [if_pos h1]
      dsimp only
      rw [if_pos h1]

/-! ## examples -/

theorem WithinList.mono {F α : Type} {val : F → ℝ} {l : List α} {Out : Res (List (Cx F)) → Prop} {v : Nat → α → ℂ} {e e' : Nat → α → ℝ}
    (h : WithinList val l Out v e) (he : ∀ b (hb : b < l.length), e b l[b] ≤ e' b l[b]) : WithinList val l Out v e' := by
  refine ⟨h.1, fun r hr => ?_⟩
  obtain ⟨xs, hx, hl, h2⟩ := h.2 r hr
  exact ⟨xs, hx, hl, fun b hb => ⟨(h2 b hb).1.trans (he b hb), (h2 b hb).2.trans (he b hb)⟩⟩

/-- three operators: `0.5 Z₀ + (1 + i) X₀ Y₁`, the empty sum, and `Z₀` -/
noncomputable def sampleSlots : List (List PauliOp) := [sampleObservable.terms, [], [⟨1, 0, 1⟩]]

theorem sampleSlots_facts : ∀ ts ∈ sampleSlots, ts.length ≤ 2 ∧ 0 ≤ coefTotal ts ∧ coefTotal ts ≤ 5 / 2 ∧ ∀ p ∈ ts, PauliFits p 2 ∧ ‖p.coef‖ ≤ 4 := by
  intro ts hts
  have h0 : 0 ≤ coefTotal ts := List.sum_nonneg (by simp)
  simp only [sampleSlots, List.mem_cons, List.not_mem_nil, or_false] at hts
  rcases hts with rfl | rfl | rfl
  · exact ⟨le_rfl, h0, sampleObservable_norms.2, fun p hp => ⟨sampleObservable_fits p hp, sampleObservable_norms.1 p hp⟩⟩
  · exact ⟨by simp, h0, by unfold coefTotal; norm_num, by simp⟩
  · refine ⟨by simp, h0, by unfold coefTotal; norm_num, fun p hp => ?_⟩
    obtain rfl := List.mem_singleton.1 hp
    exact ⟨by unfold PauliFits; simp only [pauliQubits]; decide, by norm_num⟩

theorem unit_facts {n : Nat} (hn : n ≤ 64) {m : U64 → ℂ} (hm : stateNorm (2 ^ n) m ≤ 1) :
    0 ≤ normSq (2 ^ n) m ∧ normSq (2 ^ n) m ≤ 1 ∧ ∀ j : U64, j.toNat < 2 ^ n → ‖m j‖ ≤ 1 := by
  have h1 : normSq (2 ^ n) m ≤ 1 := Real.sqrt_le_one.1 hm
  refine ⟨Finset.sum_nonneg fun _ _ => Complex.normSq_nonneg _, h1, fun j hj => ?_⟩
  have h2 : Complex.normSq (m j) ≤ normSq (2 ^ n) m :=
    Finset.single_le_sum (f := fun j => Complex.normSq (m j)) (fun _ _ => Complex.normSq_nonneg _)
      ((mem_indices (Nat.pow_le_pow_right (by norm_num) hn)).2 hj)
  rw [Complex.normSq_eq_norm_sq] at h2
  nlinarith [norm_nonneg (m j)]

theorem sample_range {T : Nat} {C S : ℝ} (hT : T ≤ 2) (hC0 : 0 ≤ C) (hC : C ≤ 5 / 2) (hS0 : 0 ≤ S) (hS : S ≤ 2) :
    ((1 : ℝ) + 2⁻¹ ^ 53) ^ (T * 2 ^ (2 - 1) + 9) * (C * S + 240 * ((2 ^ (2 - 1) : ℕ) : ℝ) * 0 * (T + C)) ≤ 64 ∧
      transErr (2⁻¹ ^ 53) 0 T (2 ^ (2 - 1)) C S ≤ 2⁻¹ ^ 40 := by
  have hCS : C * S ≤ 5 := by nlinarith
  have hCS0 : 0 ≤ C * S := by positivity
  constructor
  · have h1 : ((1 : ℝ) + 2⁻¹ ^ 53) ^ (T * 2 ^ (2 - 1) + 9) ≤ (1 + 2⁻¹ ^ 53) ^ 13 := pow_le_pow_right₀ (by norm_num) (by omega)
    have h2 : ((1 : ℝ) + 2⁻¹ ^ 53) ^ 13 ≤ 2 := by norm_num
    have h3 : (0 : ℝ) ≤ (1 + 2⁻¹ ^ 53) ^ (T * 2 ^ (2 - 1) + 9) := by positivity
    rw [mul_zero, zero_mul, add_zero]
    nlinarith
  · unfold transErr
    have h1 : ((1 : ℝ) + 2⁻¹ ^ 53) ^ (T * 2 ^ (2 - 1) + 8) ≤ (1 + 2⁻¹ ^ 53) ^ 12 := pow_le_pow_right₀ (by norm_num) (by omega)
    have h2 : ((1 : ℝ) + 2⁻¹ ^ 53) ^ 12 - 1 ≤ 2⁻¹ ^ 43 := by norm_num
    rw [mul_zero, zero_mul, zero_mul, add_zero]
    calc _ ≤ (2⁻¹ ^ 43 : ℝ) * 5 := mul_le_mul (h1.trans' le_rfl |> fun h => by linarith) hCS hCS0 (by positivity)
      _ ≤ _ := by norm_num

/-- For three states of norm at most one, the transition amplitudes and the expectation values of the three operators are computed with an error of at
most `2⁻⁴⁰`. -/
example (bra ket : Nat → U64 → Cx Bin) (hb : ∀ b < 3, stateNorm (2 ^ 2) (fun j => cval Bin.val (bra b j)) ≤ 1)
    (hk : ∀ b < 3, stateNorm (2 ^ 2) (fun j => cval Bin.val (ket b j)) ≤ 1) :
    WithinList Bin.val sampleSlots ((OpB.ofLists sampleSlots).TransitionBatchedF Bin.lib 2 2 3 3 bra ket)
      (fun b ts => inner (2 ^ 2) (fun j => cval Bin.val (bra b j)) (sumOperator ts fun j => cval Bin.val (ket b j))) (fun _ _ => 2⁻¹ ^ 40) ∧
    WithinList Bin.val sampleSlots ((OpB.ofLists sampleSlots).ExpectationBatchedF Bin.lib 2 3 ket)
      (fun b ts => inner (2 ^ 2) (fun j => cval Bin.val (ket b j)) (sumOperator ts fun j => cval Bin.val (ket b j))) (fun _ _ => 2⁻¹ ^ 40) ∧
    WithinList Bin.val sampleSlots ((OpB.ofLists sampleSlots).TransitionF Bin.lib 2 2 (bra 0) (ket 1))
      (fun _ ts => inner (2 ^ 2) (fun j => cval Bin.val (bra 0 j)) (sumOperator ts fun j => cval Bin.val (ket 1 j))) (fun _ _ => 2⁻¹ ^ 40) ∧
    WithinList Bin.val sampleSlots ((OpB.ofLists sampleSlots).ExpectationF Bin.lib 2 (ket 2))
      (fun _ ts => inner (2 ^ 2) (fun j => cval Bin.val (ket 2 j)) (sumOperator ts fun j => cval Bin.val (ket 2 j))) (fun _ _ => 2⁻¹ ^ 40) := by
  have hb' := fun b h => unit_facts (n := 2) (by norm_num) (hb b h)
  have hk' := fun b h => unit_facts (n := 2) (by norm_num) (hk b h)
  have F := fun b (h : b < sampleSlots.length) => sampleSlots_facts _ (List.getElem_mem h)
  have fits : ∀ ts ∈ sampleSlots, ∀ p ∈ ts, PauliFits p 2 ∧ ‖p.coef‖ ≤ 4 := fun ts h => (sampleSlots_facts ts h).2.2.2
  have b2 : ∀ b < 3, ∀ j : U64, j.toNat < 2 ^ 2 → ‖cval Bin.val (bra b j)‖ ≤ 2 := fun b h j hj => ((hb' b h).2.2 j hj).trans (by norm_num)
  have k2 : ∀ b < 3, ∀ j : U64, j.toNat < 2 ^ 2 → ‖cval Bin.val (ket b j)‖ ≤ 2 := fun b h j hj => ((hk' b h).2.2 j hj).trans (by norm_num)
  have A := Bin.accurate (Ω := 64) le_rfl
  have Z := bin_addZero 64
  have S1 : ∀ b < 3, ∀ c < 3, 0 ≤ normSq (2 ^ 2) (fun j => cval Bin.val (bra b j)) + normSq (2 ^ 2) (fun j => cval Bin.val (ket c j)) ∧
      normSq (2 ^ 2) (fun j => cval Bin.val (bra b j)) + normSq (2 ^ 2) (fun j => cval Bin.val (ket c j)) ≤ 2 := fun b h c h' =>
    ⟨add_nonneg (hb' b h).1 (hk' c h').1, by linarith [(hb' b h).2.1, (hk' c h').2.1]⟩
  have S2 : ∀ b < 3, 0 ≤ 2 * normSq (2 ^ 2) (fun j => cval Bin.val (ket b j)) ∧ 2 * normSq (2 ^ 2) (fun j => cval Bin.val (ket b j)) ≤ 2 := fun b h =>
    ⟨by linarith [(hk' b h).1], by linarith [(hk' b h).2.1]⟩
  refine ⟨?_, ?_, ?_, ?_⟩
  · refine (C99_transition_batched A Z (by norm_num) (by norm_num) (by norm_num) (by norm_num) fits b2 k2 (fun _ _ => rfl)
      (fun b h => ?_)).mono (fun b h => ?_)
    · exact (sample_range (F b h).1 (F b h).2.1 (F b h).2.2.1 (S1 b h b h).1 (S1 b h b h).2).1
    · exact (sample_range (F b h).1 (F b h).2.1 (F b h).2.2.1 (S1 b h b h).1 (S1 b h b h).2).2
  · refine (C99_expectation_batched A Z (by norm_num) (by norm_num) (by norm_num) (by norm_num) fits k2 (fun _ _ => rfl)
      (fun b h => ?_)).mono (fun b h => ?_)
    · exact (sample_range (F b h).1 (F b h).2.1 (F b h).2.2.1 (S2 b h).1 (S2 b h).2).1
    · exact (sample_range (F b h).1 (F b h).2.1 (F b h).2.2.1 (S2 b h).1 (S2 b h).2).2
  · refine (C99_transition A Z (by norm_num) (by norm_num) (by norm_num) (by norm_num) fits (b2 0 (by norm_num)) (k2 1 (by norm_num)) rfl
      (fun ts h => ?_)).mono (fun b h => ?_)
    · have f := sampleSlots_facts ts h
      exact (sample_range f.1 f.2.1 f.2.2.1 (S1 0 (by norm_num) 1 (by norm_num)).1 (S1 0 (by norm_num) 1 (by norm_num)).2).1
    · exact (sample_range (F b h).1 (F b h).2.1 (F b h).2.2.1 (S1 0 (by norm_num) 1 (by norm_num)).1 (S1 0 (by norm_num) 1 (by norm_num)).2).2
  · refine (C99_expectation A Z (by norm_num) (by norm_num) (by norm_num) (by norm_num) fits (k2 2 (by norm_num)) rfl
      (fun ts h => ?_)).mono (fun b h => ?_)
    · have f := sampleSlots_facts ts h
      exact (sample_range f.1 f.2.1 f.2.2.1 (S2 2 (by norm_num)).1 (S2 2 (by norm_num)).2).1
    · exact (sample_range (F b h).1 (F b h).2.1 (F b h).2.2.1 (S2 2 (by norm_num)).1 (S2 2 (by norm_num)).2).2

/-- The values of the two terms of the sample observable in a state of norm at most one. -/
example (m : U64 → Cx Bin) (hm : stateNorm (2 ^ 2) (fun j => cval Bin.val (m j)) ≤ 1) :
    WithinList Bin.val sampleObservable.terms (sampleObservable.ExpectationValuesF Bin.lib 2 m)
      (fun _ p => inner (2 ^ 2) (fun j => cval Bin.val (m j)) (pauliOperator p fun j => cval Bin.val (m j)))
      (fun _ p => expErr (2⁻¹ ^ 53) 0 1 (2 ^ (2 - 1)) ‖p.coef‖ (normSq (2 ^ 2) fun j => cval Bin.val (m j))) := by
  obtain ⟨h0, h1, h2⟩ := unit_facts (n := 2) (by norm_num) hm
  refine C99_values_partial (Bin.accurate (Ω := 64) le_rfl) (bin_addZero 64) (by norm_num) (by norm_num) (by norm_num) (by norm_num)
    (fun j hj => (h2 j hj).trans (by norm_num)) sampleObservable_fits (by simp [sampleObservable, Op.ofTerms])
    (fun p hp => (sampleObservable_norms.1 p hp).trans (by norm_num)) rfl (fun p hp => ?_)
  have h4 := sampleObservable_norms.1 p hp
  have hp0 := norm_nonneg p.coef
  have e : ((1 : ℝ) + 2⁻¹ ^ 53) ^ (2 ^ (2 - 1) + 8) ≤ 2 := by norm_num
  have e0 : (0 : ℝ) ≤ (1 + 2⁻¹ ^ 53) ^ (2 ^ (2 - 1) + 8) := by positivity
  rw [mul_zero, zero_mul, add_zero]
  have : ‖p.coef‖ * (normSq (2 ^ 2) fun j => cval Bin.val (m j)) ≤ 4 := by nlinarith
  have h5 : 0 ≤ ‖p.coef‖ * (normSq (2 ^ 2) fun j => cval Bin.val (m j)) := by positivity
  exact (mul_le_mul e this h5 (by norm_num)).trans (by norm_num)

/-- At 32 qubits the identity has the value `1` in the state `|0…0⟩`, but `get_expectation_values` gives zero. -/
example (m : U64 → Cx Bin) (hm : ∀ j, cval Bin.val (m j) = basisState 0 j) :
    WithinList Bin.val (Op.ofTerms [⟨1, 0, 0⟩]).terms ((Op.ofTerms [⟨1, 0, 0⟩]).ExpectationValuesF Bin.lib 32 m) (fun _ _ => 0) (fun _ _ => 0) ∧
      ∀ p ∈ (Op.ofTerms [⟨1, 0, 0⟩]).terms, Spec.inner (2 ^ 32) (fun j => cval Bin.val (m j)) (pauliOperator p fun j => cval Bin.val (m j)) = 1 := by
  refine ⟨C99_counterexample_values (Bin.accurate (Ω := 64) le_rfl) (bin_addZero 64) (by simp [Op.ofTerms]), fun p hp => ?_⟩
  obtain rfl : p = ⟨1, 0, 0⟩ := by simpa [Op.ofTerms] using hp
  rw [show (fun j => cval Bin.val (m j)) = basisState 0 from funext hm, pauliAct_identity, inner_basisState 32 (by norm_num)]

/-- Such a state exists. -/
example : ∃ m : U64 → Cx Bin, ∀ j, cval Bin.val (m j) = basisState 0 j := by
  refine ⟨fun j => if j = 0 then ⟨1, 0⟩ else ⟨0, 0⟩, fun j => ?_⟩
  unfold basisState
  by_cases h : j = 0
  · simp only [h, if_true]
    apply Complex.ext
    · exact Bin.val_one
    · exact Bin.val_zero
  · simp only [h, if_false]
    apply Complex.ext
    · exact Bin.val_zero
    · exact Bin.val_zero

end Verif.Props
