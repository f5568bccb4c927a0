import Verif.Props.Pauli
import Verif.Proofs.Operator

/-! # C21 (operators), C26-C29: sums of Pauli operators

`sumOperator ts` (Spec/Desc) is the sum of the maps `pauliOperator p` over the terms `p`. -/

namespace Verif.Props
open Verif Verif.Spec Verif.Model Verif.Proofs
attribute [-simp] BitVec.getLsbD_eq_getElem

theorem sumOperator_eq (ts : List PauliOp) (ψ : U64 → ℂ) : sumOperator ts ψ = OpAct ts ψ := by
  funext j
  unfold sumOperator OpAct
  simp only [pauliOperator_eq]

/-- all qubits of all terms are below `n` -/
def OpFits (o : Op) (n : Nat) : Prop := ∀ p ∈ o.terms, PauliFits p n

theorem opFits_masks {o : Op} {n : Nat} (h : OpFits o n) : ∀ p ∈ o.terms, p.x.toNat < 2 ^ n ∧ p.z.toNat < 2 ^ n :=
  fun p hp => fits_masks (h p hp)

theorem opFits_x {o : Op} {n : Nat} (h : OpFits o n) : ∀ p ∈ o.terms, p.x.toNat < 2 ^ n :=
  fun p hp => (fits_masks (h p hp)).1

/-- the operator `(2+i) X₀Y₃Z₅ + 3 Z₁` -/
noncomputable def sampleOp : Op := Op.ofTerms [sampleP, ⟨3, 0, 0b10⟩]

theorem sampleOp_fits : OpFits sampleOp 6 := by
  intro p hp
  have : p = sampleP ∨ p = ⟨3, 0, 0b10⟩ := by simpa [sampleOp, Op.ofTerms] using hp
  rcases this with rfl | rfl
  · exact sampleP_fits
  · unfold PauliFits
    rw [show pauliQubits ⟨3, 0, 0b10⟩ = [1] from by simp only [pauliQubits]; decide]
    simp

/-! ## C26 -/

/-- **C26 (application).** `apply_to_state` gives the sum of the terms applied to the state, under every schedule of the
parallel kernel, and the final state is determined. -/
theorem C26_apply (o : Op) {n : Nat} (hn : n ≤ 64) (ho : OpFits o n) (ψ ψ' : U64 → ℂ) :
    o.Applies (2 ^ n) ψ ψ' ↔ ψ' = onState (2 ^ n) (sumOperator o.terms) ψ := by
  have h := opApplies_spec o hn (opFits_x ho) ψ
  rw [show OpAct o.terms = sumOperator o.terms from (funext fun ψ => (sumOperator_eq _ ψ).symm)] at h
  constructor
  · intro h'; exact opApplies_unique h' h
  · rintro rfl; exact h

/-- `get_full_matrix` represents the operator, for every number of qubits below 64 (zero included) -/
theorem C26_full_matrix (o : Op) {n : Nat} (hn : n < 64) (ho : OpFits o n) :
    ∃ M, o.getFullMatrix n = .ok M ∧ M.rows = 2 ^ n ∧ M.cols = 2 ^ n ∧
      ∀ ψ, applyMat (List.range n) M.entry [] ψ = sumOperator o.terms ψ := by
  obtain ⟨M, h1, h2, h3, h4⟩ := opFullMatrix_spec o hn (opFits_masks ho)
  exact ⟨M, h1, h2, h3, fun ψ => by rw [h4, sumOperator_eq]⟩

/-- **C26 (expectation values and transition amplitudes, partial).** They equal `⟨ψ|O ψ⟩` and `⟨bra|O ket⟩`, for single
states and for every slot of a batch, and `get_expectation_values` gives the values of the single terms.
Missing: registers without qubits (`C26_counterexample`), and for `get_expectation_values` registers of 32 qubits or
more (`C26_values_counterexample`). -/
theorem C26_values_partial (o : Op) {n : Nat} (hn1 : 1 ≤ n) (hn : n ≤ 64) (ho : OpFits o n) :
    (∀ ψ, o.expectation (2 ^ n) ψ = .ok (inner (2 ^ n) ψ (sumOperator o.terms ψ))) ∧
    (∀ bra ket, o.transition n n bra ket = .ok (inner (2 ^ n) bra (sumOperator o.terms ket))) ∧
    (∀ (size : Nat) raw, o.expectationBatched ⟨n, size, raw⟩ =
      .ok ((List.range size).map fun b => inner (2 ^ n) (raw b) (sumOperator o.terms (raw b)))) ∧
    (∀ (size : Nat) bra ket, o.transitionBatched ⟨n, size, bra⟩ ⟨n, size, ket⟩ =
      .ok ((List.range size).map fun b => inner (2 ^ n) (bra b) (sumOperator o.terms (ket b)))) ∧
    (n ≤ 31 → o.terms.length < 2 ^ 31 → ∀ ψ, o.expectationValues (2 ^ n) ψ =
      .ok (o.terms.map fun p => inner (2 ^ n) ψ (pauliOperator p ψ))) := by
  simp only [sumOperator_eq, pauliOperator_eq]
  refine ⟨fun ψ => opExpectation_spec o hn1 hn (opFits_x ho) ψ, fun bra ket => ?_, fun size raw => ?_,
    fun size bra ket => ?_, fun h31 hl ψ => opExpectationValues_spec o hn1 h31 hl (opFits_x ho) ψ⟩
  · unfold Op.transition
    rw [if_neg (by simp)]
    exact opTransition_spec o hn1 hn (opFits_x ho) bra ket
  · unfold Op.expectationBatched
    exact perSlot_ok fun b _ => opExpectation_spec o hn1 hn (opFits_x ho) (raw b)
  · unfold Op.transitionBatched
    rw [if_neg (by simp), if_neg (by simp)]
    exact perSlot_ok fun b _ => opTransition_spec o hn1 hn (opFits_x ho) (bra b) (ket b)

/-- states with different numbers of qubits or batch sizes are rejected -/
theorem C26_mismatch (o : Op) (bra ket : Batch) (h : bra.n ≠ ket.n ∨ bra.size ≠ ket.size) :
    (∃ e, o.transitionBatched bra ket = .error (.throw e)) ∧
    (bra.n ≠ ket.n → ∀ φ ψ, ∃ e, o.transition bra.n ket.n φ ψ = .error (.throw e)) := by
  constructor
  · unfold Op.transitionBatched
    by_cases h1 : bra.n = ket.n
    · rw [if_neg (by simp [h1]), if_pos (by rcases h with h | h <;> tauto)]; exact ⟨_, rfl⟩
    · rw [if_pos h1]; exact ⟨_, rfl⟩
  · intro hne φ ψ
    unfold Op.transition
    rw [if_pos hne]; exact ⟨_, rfl⟩

theorem pauliAct_identity (ψ : U64 → ℂ) : pauliOperator ⟨1, 0, 0⟩ ψ = ψ := by
  rw [pauliOperator_eq]
  funext j
  unfold PauliAct pauliAct pauliExp
  have p1 : popcount (j &&& (0 : U64)) = 0 := by rw [show j &&& (0 : U64) = 0 from by simp]; rfl
  have p2 : popcount ((0 : U64) &&& 0) = 0 := by decide
  rw [show j ^^^ (0 : U64) = j from by simp, p1, p2]
  simp

theorem inner_basisState (n : Nat) (hn : n ≤ 64) : inner (2 ^ n) (basisState 0) (basisState 0) = 1 := by
  unfold inner
  rw [Finset.sum_eq_single (0 : U64)]
  · simp [basisState]
  · intro j _ hj; simp only [basisState, if_neg hj, mul_zero]
  · intro h
    exact absurd ((mem_indices (Nat.pow_le_pow_right (by omega) hn)).2 (by simp)) h

/-- **C26 fails without qubits**: the identity operator has expectation value 1 and amplitude 1 in the state with a single
amplitude 1; the functions return 0, because they loop over `dim >> 1 = 0` indices. -/
theorem C26_counterexample :
    ∃ o : Op, OpFits o 0 ∧ o.expectation (2 ^ 0) (basisState 0) = .ok 0 ∧
      o.transition 0 0 (basisState 0) (basisState 0) = .ok 0 ∧
      inner (2 ^ 0) (basisState 0) (sumOperator o.terms (basisState 0)) = 1 := by
  refine ⟨Op.ofTerms [⟨1, 0, 0⟩], ?_, rfl, rfl, ?_⟩
  · intro p hp
    obtain rfl : p = ⟨1, 0, 0⟩ := by simpa [Op.ofTerms] using hp
    unfold PauliFits
    rw [show pauliQubits ⟨1, 0, 0⟩ = [] from by simp only [pauliQubits]; decide]; simp
  · rw [show sumOperator (Op.ofTerms [⟨1, 0, 0⟩]).terms (basisState 0) = basisState 0 from by
      funext j; simp only [sumOperator, Op.ofTerms, List.map_cons, List.map_nil, List.sum_cons, List.sum_nil, add_zero]
      rw [pauliAct_identity]]
    exact inner_basisState 0 (by norm_num)

/-- **`get_expectation_values` fails from 32 qubits on**: `2^31` does not fit an `int`, the loop runs to a negative bound
and every value is 0. -/
theorem C26_values_counterexample :
    ∃ o : Op, OpFits o 32 ∧ o.expectationValues (2 ^ 32) (basisState 0) = .ok [0] ∧
      o.terms.map (fun p => inner (2 ^ 32) (basisState 0) (pauliOperator p (basisState 0))) = [1] := by
  refine ⟨Op.ofTerms [⟨1, 0, 0⟩], ?_, ?_, ?_⟩
  · intro p hp
    obtain rfl : p = ⟨1, 0, 0⟩ := by simpa [Op.ofTerms] using hp
    unfold PauliFits
    rw [show pauliQubits ⟨1, 0, 0⟩ = [] from by simp only [pauliQubits]; decide]; simp
  · have h1 : (toInt32 (2 ^ 32 >>> 1)).toNat = 0 := by decide
    have h2 : (toInt32 1).toNat = 1 := by decide
    unfold Op.expectationValues
    rw [h1, show (Op.ofTerms [⟨1, 0, 0⟩]).terms.length = 1 from rfl, h2]
    rfl
  · simp only [Op.ofTerms, List.map_cons, List.map_nil]
    rw [pauliAct_identity, inner_basisState 32 (by norm_num)]

example : OpFits sampleOp 6 ∧ sampleOp.terms.length < 2 ^ 31 := ⟨sampleOp_fits, by simp [sampleOp, Op.ofTerms]⟩

/-! ## C21 for operators -/

/-- **C21 (operators).** `Operator::get_dagger` is the adjoint. -/
theorem C21_operator_dagger (o : Op) {n : Nat} (hn : n ≤ 64) (ho : OpFits o n) (φ ψ : U64 → ℂ) :
    inner (2 ^ n) φ (sumOperator o.terms ψ) = (starRingEnd ℂ) (inner (2 ^ n) ψ (sumOperator o.dagger.terms φ)) := by
  rw [sumOperator_eq, sumOperator_eq, inner_opAct, inner_opAct]
  unfold Op.dagger
  have h : ∀ l : List PauliOp, (∀ p ∈ l, PauliFits p n) →
      (l.map fun p => inner (2 ^ n) φ (PauliAct p ψ)).sum =
        (starRingEnd ℂ) (((l.map PauliOp.dagger).map fun p => inner (2 ^ n) ψ (PauliAct p φ)).sum) := by
    intro l
    induction l with
    | nil => intro _; simp
    | cons p l ih =>
      intro hl
      simp only [List.map_cons, List.sum_cons]
      rw [ih (fun q hq => hl q (by simp [hq])), map_add]
      congr 1
      have := C21_dagger p hn (hl p (by simp)) φ ψ
      rwa [pauliOperator_eq, pauliOperator_eq] at this
  exact h o.terms ho

/-! ## C27 -/

/-- **C27.** `optimize()` keeps the linear map; afterwards no two terms have the same Pauli string, and the strings are
those that occurred before. -/
theorem C27_optimize {o o' : Op} (h : o.optimize = .ok o') :
    (∀ ψ, sumOperator o'.terms ψ = sumOperator o.terms ψ) ∧
    (o'.terms.map fun p => (p.x, p.z)).Nodup ∧
    (∀ k : U64 × U64, k ∈ o'.terms.map (fun p => (p.x, p.z)) ↔ k ∈ o.terms.map (fun p => (p.x, p.z))) ∧
    (o'.hermitian = true ↔ ∀ p ∈ o'.terms, p.coef.im = 0) := by
  obtain ⟨h1, h2, h3, h4⟩ := optimize_spec h
  refine ⟨fun ψ => by rw [sumOperator_eq, sumOperator_eq, h1], ?_, fun k => ?_, ?_⟩
  · unfold List.Nodup
    rw [List.pairwise_map]
    refine h2.imp ?_
    intro a b hab e
    rw [e, keyLt_irrefl] at hab
    cases hab
  · rw [List.mem_map, List.mem_map]; exact h3 k
  · rw [h4]; simp [realCoefs]

/-- `optimize()` succeeds on operators that are not views and throws on views -/
theorem C27_optimize_total (o : Op) :
    (o.isView = false → ∃ o', o.optimize = .ok o') ∧ (o.isView = true → ∃ e, o.optimize = .error (.throw e)) := by
  unfold Op.optimize
  constructor
  · intro h; rw [h]; exact ⟨_, rfl⟩
  · intro h; rw [h]; exact ⟨_, rfl⟩

/-- two terms with the same string are merged -/
example : ∃ o', (Op.ofTerms [⟨1, 0b11, 0b10⟩, ⟨5, 0, 1⟩, ⟨2, 0b11, 0b10⟩]).optimize = .ok o' ∧ o'.terms.length = 2 := by
  have e1 : ¬ ((0 : U64), (1 : U64)) = (3, 2) := by decide
  have e2 : keyLt ((0 : U64), (1 : U64)) (3, 2) = true := by decide
  have e3 : ¬ ((3 : U64), (2 : U64)) = (0, 1) := by decide
  have e4 : ¬ keyLt ((3 : U64), (2 : U64)) (0, 1) = true := by decide
  refine ⟨_, rfl, ?_⟩
  simp only [Op.ofTerms, List.foldl_cons, List.foldl_nil, mapAdd, show (0b11 : U64) = 3 from rfl,
    show (0b10 : U64) = 2 from rfl, if_neg e1, if_pos e2, if_neg e3, if_neg e4, if_true, List.map_cons, List.map_nil,
    List.length_cons, List.length_nil]

/-! ## C28 -/

/-- **C28.** The arithmetic of operators is the arithmetic of the linear maps. -/
theorem C28_arithmetic (a b : Op) (p : PauliOp) (c : ℂ) (ψ : U64 → ℂ) (j : U64) :
    sumOperator (a.add b).terms ψ j = sumOperator a.terms ψ j + sumOperator b.terms ψ j ∧
    sumOperator (a.sub b).terms ψ j = sumOperator a.terms ψ j - sumOperator b.terms ψ j ∧
    sumOperator (a.mul b).terms ψ j = sumOperator a.terms (sumOperator b.terms ψ) j ∧
    sumOperator (a.scale c).terms ψ j = c * sumOperator a.terms ψ j ∧
    sumOperator (a.scaleAssign c).terms ψ j = c * sumOperator a.terms ψ j ∧
    sumOperator a.neg.terms ψ j = - sumOperator a.terms ψ j ∧
    sumOperator (a.mulPauli p).terms ψ j = sumOperator a.terms (pauliOperator p ψ) j ∧
    sumOperator (a.mulPauliAssign p).terms ψ j = sumOperator a.terms (pauliOperator p ψ) j ∧
    sumOperator (a.addPauli p).terms ψ j = sumOperator a.terms ψ j + pauliOperator p ψ j ∧
    sumOperator (a.subPauli p).terms ψ j = sumOperator a.terms ψ j - pauliOperator p ψ j := by
  simp only [sumOperator_eq, pauliOperator_eq]
  have one : ∀ q : PauliOp, OpAct [q] ψ j = PauliAct q ψ j := by intro q; simp [OpAct]
  refine ⟨opAct_append _ _ _ _, ?_, congrFun (opAct_mul _ _ _) j, opAct_scale _ _ _ _, opAct_scale _ _ _ _, ?_,
    congrFun (opAct_mulPauli _ _ _) j, congrFun (opAct_mulPauli _ _ _) j, ?_, ?_⟩
  · show OpAct (a.terms ++ b.terms.map fun p => p.scale (-1)) ψ j = _
    rw [opAct_append, opAct_scale]; ring
  · show OpAct (a.terms.map fun p => p.scale (-1)) ψ j = _
    rw [opAct_scale]; ring
  · show OpAct (a.terms ++ [p]) ψ j = _
    rw [opAct_append, one]
  · show OpAct (a.terms ++ [p.scale (-1)]) ψ j = _
    rw [opAct_append, one]
    unfold PauliAct PauliOp.scale
    ring

/-- `X₀ · Z₀` as operators: the product sends `|0⟩` to `|1⟩` -/
example : sumOperator ((Op.ofTerms [⟨1, 1, 0⟩]).mul (Op.ofTerms [⟨1, 0, 1⟩])).terms (basisState 0) 1 = 1 := by
  rw [(C28_arithmetic _ _ ⟨1, 0, 0⟩ 1 _ _).2.2.1]
  simp only [sumOperator, Op.ofTerms, List.map_cons, List.map_nil, List.sum_cons, List.sum_nil, add_zero, pauliOperator_eq]
  unfold PauliAct pauliAct pauliExp
  have p1 : popcount ((1 : U64) &&& 0) = 0 := by decide
  have p2 : popcount ((0 : U64) &&& 1) = 0 := by decide
  have x2 : (1 : U64) ^^^ 1 = 0 := by decide
  simp only [x2, p1, sumOperator, List.map_cons, List.map_nil, List.sum_cons, List.sum_nil, add_zero, pauliOperator_eq]
  unfold PauliAct pauliAct pauliExp
  have p3 : popcount ((0 : U64) &&& 0) = 0 := by decide
  have x3 : (0 : U64) ^^^ 0 = 0 := by decide
  simp only [x3, p2, p3, basisState, if_true]
  norm_num

/-! ## C29 -/

/-- the linear map on `2^n` amplitudes is Hermitian -/
def IsHermitian (n : Nat) (f : (U64 → ℂ) → U64 → ℂ) : Prop :=
  ∀ φ ψ, inner (2 ^ n) φ (f ψ) = (starRingEnd ℂ) (inner (2 ^ n) ψ (f φ))

/-- operators obtained from lists of terms by the operations whose flag is maintained correctly: everything except
`Operator * Operator`, `Operator * PauliOperator` and `Operator *= PauliOperator` -/
inductive Sound : Op → Prop
  | ofTerms (ts) : Sound (Op.ofTerms ts)
  | copy {o} : Sound o → Sound o.copy
  | load {o ts o'} : Sound o → o.load ts = .ok o' → Sound o'
  | optimize {o o'} : Sound o → o.optimize = .ok o' → Sound o'
  | dagger {o} : Sound o → Sound o.dagger
  | scale {o} (c) : Sound o → Sound (o.scale c)
  | scaleAssign {o} (c) : Sound o → Sound (o.scaleAssign c)
  | neg {o} : Sound o → Sound o.neg
  | add {o t} : Sound o → Sound t → Sound (o.add t)
  | sub {o t} : Sound o → Sound t → Sound (o.sub t)
  | addPauli {o} (p) : Sound o → Sound (o.addPauli p)
  | subPauli {o} (p) : Sound o → Sound (o.subPauli p)

theorem real_scale {p : PauliOp} {c : ℂ} (hp : p.coef.im = 0) (hc : c.im = 0) : (p.scale c).coef.im = 0 := by
  simp [PauliOp.scale, hp, hc]

/-- the flag implies that all coefficients are real -/
theorem sound_real {o : Op} (h : Sound o) : o.hermitian = true → ∀ p ∈ o.terms, p.coef.im = 0 := by
  have hscale : ∀ {o : Op} {c : ℂ}, (o.hermitian = true → ∀ p ∈ o.terms, p.coef.im = 0) →
      (o.hermitian && decide (c.im = 0)) = true → ∀ p ∈ o.terms.map (fun p => p.scale c), p.coef.im = 0 := by
    intro o c ih hh p hp
    rw [Bool.and_eq_true, decide_eq_true_eq] at hh
    obtain ⟨q, hq, rfl⟩ := List.mem_map.1 hp
    exact real_scale (ih hh.1 q hq) hh.2
  have hreal : ∀ {ts : List PauliOp}, realCoefs ts = true → ∀ p ∈ ts, p.coef.im = 0 := by
    intro ts h p hp
    have := List.all_eq_true.1 h p hp
    simpa using this
  have hadd : ∀ {o t : Op}, (o.hermitian = true → ∀ p ∈ o.terms, p.coef.im = 0) →
      (t.hermitian = true → ∀ p ∈ t.terms, p.coef.im = 0) → (o.add t).hermitian = true →
      ∀ p ∈ (o.add t).terms, p.coef.im = 0 := by
    intro o t h1 h2 hh p hp
    unfold Op.add at hh hp
    rw [Bool.and_eq_true] at hh
    rcases List.mem_append.1 hp with h | h
    · exact h1 hh.1 p h
    · exact h2 hh.2 p h
  have haddP : ∀ {o : Op} {q : PauliOp}, (o.hermitian = true → ∀ p ∈ o.terms, p.coef.im = 0) →
      (o.addPauli q).hermitian = true → ∀ p ∈ (o.addPauli q).terms, p.coef.im = 0 := by
    intro o q h1 hh p hp
    unfold Op.addPauli at hh hp
    rw [Bool.and_eq_true, decide_eq_true_eq] at hh
    rcases List.mem_append.1 hp with h | h
    · exact h1 hh.1 p h
    · rw [List.mem_singleton.1 h]; exact hh.2
  induction h with
  | ofTerms ts => exact hreal
  | copy _ ih => exact ih
  | load _ hl _ =>
    unfold Op.load at hl
    split at hl
    · cases hl
    · cases hl; exact hreal
  | optimize _ ho _ =>
    intro hh
    exact ((C27_optimize ho).2.2.2).1 hh
  | dagger _ ih =>
    intro hh p hp
    obtain ⟨q, hq, rfl⟩ := List.mem_map.1 hp
    have := ih hh q hq
    simp [PauliOp.dagger, this]
  | scale c _ ih => exact hscale ih
  | scaleAssign c _ ih => exact hscale ih
  | neg _ ih => exact hscale ih
  | add _ _ ih1 ih2 => exact hadd ih1 ih2
  | sub _ _ ih1 ih2 => exact hadd ih1 (hscale ih2)
  | addPauli p _ ih => exact haddP ih
  | subPauli p _ ih => exact haddP ih

theorem real_hermitian {o : Op} (h : ∀ p ∈ o.terms, p.coef.im = 0) {n : Nat} (hn : n ≤ 64) (ho : OpFits o n) :
    IsHermitian n (sumOperator o.terms) := by
  intro φ ψ
  rw [C21_operator_dagger o hn ho]
  congr 3
  unfold Op.dagger
  have : o.terms.map PauliOp.dagger = o.terms.map id := by
    apply List.map_congr_left
    intro p hp
    have hp := h p hp
    obtain ⟨c, x, z⟩ := p
    unfold PauliOp.dagger
    simp only [id]
    rw [Complex.conj_eq_iff_im.2 hp]
  rw [this, List.map_id]

/-- **C29 (partial).** For operators obtained by construction, copying, `load`, `optimize`, `get_dagger`, scaling, negation,
sums and differences: if `is_hermitian()` answers true, the operator is Hermitian; and operators built by these operations
from real terms and real factors answer true.
Missing: products (`C29_counterexample_product`, `C29_counterexample_pauli`). -/
theorem C29_hermitian_partial {o : Op} (h : Sound o) :
    (o.hermitian = true → ∀ n, n ≤ 64 → OpFits o n → IsHermitian n (sumOperator o.terms)) ∧
    (∀ ts : List PauliOp, (∀ p ∈ ts, p.coef.im = 0) → (Op.ofTerms ts).hermitian = true) ∧
    (o.hermitian = true → o.copy.hermitian = true ∧ o.dagger.hermitian = true ∧ o.neg.hermitian = true ∧
      (∀ c : ℂ, c.im = 0 → (o.scale c).hermitian = true) ∧
      (∀ t : Op, t.hermitian = true → (o.add t).hermitian = true ∧ (o.sub t).hermitian = true) ∧
      (∀ p : PauliOp, p.coef.im = 0 → (o.addPauli p).hermitian = true ∧ (o.subPauli p).hermitian = true)) := by
  refine ⟨fun hh n hn ho => real_hermitian (sound_real h hh) hn ho, ?_, ?_⟩
  · intro ts hts
    unfold Op.ofTerms realCoefs
    rw [List.all_eq_true]
    intro p hp
    simp [hts p hp]
  · intro hh
    have hm1 : ((-1 : ℂ)).im = 0 := by simp
    refine ⟨hh, hh, ?_, ?_, ?_, ?_⟩
    · unfold Op.neg Op.scale Op.scaleAssign Op.copy; simp [hh]
    · intro c hc; unfold Op.scale Op.scaleAssign Op.copy; simp [hh, hc]
    · intro t ht; unfold Op.sub Op.add Op.scale Op.scaleAssign Op.copy; simp [hh, ht]
    · intro p hp
      unfold Op.subPauli Op.addPauli; simp [hh, hp, PauliOp.scale]

theorem mul_XZ : PauliOp.mul ⟨1, 1, 0⟩ ⟨1, 0, 1⟩ = ⟨-Complex.I, 1, 1⟩ := by
  unfold PauliOp.mul
  have c : ((popcount ((1 : U64) &&& ~~~0 &&& (0 &&& 1)) : Int) + popcount ((1 : U64) &&& 0 &&& (1 &&& ~~~0)) +
      popcount ((0 : U64) &&& ~~~1 &&& (0 &&& ~~~1)) - popcount ((1 : U64) &&& ~~~0 &&& (1 &&& ~~~0)) -
      popcount ((1 : U64) &&& 0 &&& (0 &&& ~~~1)) - popcount ((0 : U64) &&& ~~~1 &&& (0 &&& 1))) = -1 := by decide
  dsimp only
  rw [c]
  simp [phase90, imagUnit_eq]

/-- `-i·Y` is not Hermitian -/
theorem not_hermitian_XZ : ¬ IsHermitian 1 (sumOperator [⟨-Complex.I, 1, 1⟩]) := by
  intro h
  have h1 := h (basisState 0) (basisState 1)
  have hm : ∀ j : U64, j ∈ indices (2 ^ 1) ↔ j.toNat < 2 := fun j => by
    rw [mem_indices (by norm_num)]; exact Iff.rfl
  have hv : ∀ (a : U64) (f : U64 → ℂ), a.toNat < 2 → inner (2 ^ 1) (basisState a) f = f a := by
    intro a f ha
    unfold inner
    rw [Finset.sum_eq_single a]
    · simp [basisState]
    · intro j _ hj; simp [basisState, hj]
    · intro hn; exact absurd ((hm a).2 ha) hn
  rw [hv 0 _ (by decide), hv 1 _ (by decide)] at h1
  simp only [sumOperator, List.map_cons, List.map_nil, List.sum_cons, List.sum_nil, add_zero, pauliOperator_eq] at h1
  unfold PauliAct pauliAct pauliExp at h1
  have p0 : popcount ((0 : U64) &&& 1) = 0 := by decide
  have p1 : popcount ((1 : U64) &&& 1) = 1 := by decide
  have x0 : (0 : U64) ^^^ 1 = 1 := by decide
  have x1 : (1 : U64) ^^^ 1 = 0 := by decide
  simp only [p0, p1, x0, x1, basisState, if_true] at h1
  norm_num at h1

/-- **C29 fails for products of operators**: `X₀ · Z₀ = -i Y₀` is flagged Hermitian, and `X₀ · X₀` (the identity, real
coefficient) is flagged not Hermitian. -/
theorem C29_counterexample_product :
    ((Op.ofTerms [⟨1, 1, 0⟩]).mul (Op.ofTerms [⟨1, 0, 1⟩])).hermitian = true ∧
    OpFits ((Op.ofTerms [⟨1, 1, 0⟩]).mul (Op.ofTerms [⟨1, 0, 1⟩])) 1 ∧
    ¬ IsHermitian 1 (sumOperator ((Op.ofTerms [⟨1, 1, 0⟩]).mul (Op.ofTerms [⟨1, 0, 1⟩])).terms) := by
  have e : ((Op.ofTerms [⟨1, 1, 0⟩]).mul (Op.ofTerms [⟨1, 0, 1⟩])).terms = [⟨-Complex.I, 1, 1⟩] := by
    show [PauliOp.mul ⟨1, 1, 0⟩ ⟨1, 0, 1⟩] = _
    rw [mul_XZ]
  refine ⟨?_, ?_, ?_⟩
  · show decide (([PauliOp.mul ⟨1, 1, 0⟩ ⟨1, 0, 1⟩].filter fun p => decide (p.coef.im = 0)).length = 0) = true
    rw [mul_XZ]; simp
  · intro p hp
    rw [e] at hp
    obtain rfl := List.mem_singleton.1 hp
    unfold PauliFits
    rw [show pauliQubits ⟨-Complex.I, 1, 1⟩ = [0] from by simp only [pauliQubits]; decide]; simp
  · rw [e]; exact not_hermitian_XZ

/-- **C29 fails for products with a Pauli operator**: `X₀ * Z₀` is flagged Hermitian. -/
theorem C29_counterexample_pauli :
    ((Op.ofTerms [⟨1, 1, 0⟩]).mulPauli ⟨1, 0, 1⟩).hermitian = true ∧
    OpFits ((Op.ofTerms [⟨1, 1, 0⟩]).mulPauli ⟨1, 0, 1⟩) 1 ∧
    ¬ IsHermitian 1 (sumOperator ((Op.ofTerms [⟨1, 1, 0⟩]).mulPauli ⟨1, 0, 1⟩).terms) := by
  have e : ((Op.ofTerms [⟨1, 1, 0⟩]).mulPauli ⟨1, 0, 1⟩).terms = [⟨-Complex.I, 1, 1⟩] := by
    show [PauliOp.mul ⟨1, 1, 0⟩ ⟨1, 0, 1⟩] = _
    rw [mul_XZ]
  refine ⟨?_, ?_, ?_⟩
  · simp [Op.mulPauli, Op.mulPauliAssign, Op.copy, Op.ofTerms, realCoefs]
  · intro p hp
    rw [e] at hp
    obtain rfl := List.mem_singleton.1 hp
    unfold PauliFits
    rw [show pauliQubits ⟨-Complex.I, 1, 1⟩ = [0] from by simp only [pauliQubits]; decide]; simp
  · rw [e]; exact not_hermitian_XZ

/-- **C29 fails the other way too**: `X₀ * X₀` is the identity with a real coefficient, and is flagged not Hermitian. -/
theorem C29_counterexample_complete :
    ((Op.ofTerms [⟨1, 1, 0⟩]).mul (Op.ofTerms [⟨1, 1, 0⟩])).hermitian = false ∧
    ∀ p ∈ ((Op.ofTerms [⟨1, 1, 0⟩]).mul (Op.ofTerms [⟨1, 1, 0⟩])).terms, p.coef = 1 ∧ p.x = 0 ∧ p.z = 0 := by
  have m : PauliOp.mul ⟨1, 1, 0⟩ ⟨1, 1, 0⟩ = ⟨1, 0, 0⟩ := by
    unfold PauliOp.mul
    have c : ((popcount ((1 : U64) &&& ~~~0 &&& (1 &&& 0)) : Int) + popcount ((1 : U64) &&& 0 &&& (0 &&& ~~~1)) +
        popcount ((0 : U64) &&& ~~~1 &&& (1 &&& ~~~0)) - popcount ((1 : U64) &&& ~~~0 &&& (0 &&& ~~~1)) -
        popcount ((1 : U64) &&& 0 &&& (1 &&& ~~~0)) - popcount ((0 : U64) &&& ~~~1 &&& (1 &&& 0))) = 0 := by decide
    dsimp only
    rw [c]
    simp [phase90]
  constructor
  · show decide (([PauliOp.mul ⟨1, 1, 0⟩ ⟨1, 1, 0⟩].filter fun p => decide (p.coef.im = 0)).length = 0) = false
    rw [m]; simp
  · intro p hp
    have hp : p ∈ [PauliOp.mul ⟨1, 1, 0⟩ ⟨1, 1, 0⟩] := hp
    rw [m] at hp
    obtain rfl := List.mem_singleton.1 hp
    exact ⟨rfl, rfl, rfl⟩

/-- a real operator of the family of `C29_hermitian_partial` -/
example : Sound ((Op.ofTerms [⟨1, 1, 0⟩]).add ((Op.ofTerms [⟨2, 0, 1⟩]).scale 3)) ∧
    ((Op.ofTerms [⟨1, 1, 0⟩]).add ((Op.ofTerms [⟨2, 0, 1⟩]).scale 3)).hermitian = true :=
  ⟨.add (.ofTerms _) (.scale _ (.ofTerms _)), by
    simp [Op.add, Op.scale, Op.scaleAssign, Op.copy, Op.ofTerms, realCoefs]⟩

end Verif.Props
