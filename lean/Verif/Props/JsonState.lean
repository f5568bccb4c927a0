import Verif.Proofs.JsonState
import Verif.Props.OperatorBatched

/-!
# Properties of the JSON form of operators and states (C61)
-/

namespace Verif.Props
open Verif Verif.Spec Verif.Model Verif.Proofs

/-- **C61** (Pauli operators).  What is written is read back as the same operator: same qubits, same letters, same coefficient. -/
theorem C61_pauli (p : PauliOp) : ∃ j, p.toJson = .ok j ∧ PauliOp.ofJson j = .ok p := pauli_back p

/-- **C61** (operators).  Every operator is written and read back with the same terms in the same order; the flag of the result is true exactly
if every coefficient is real, and the result is the operator itself whenever its flag said so. -/
theorem C61_operator_partial (o : Op) : ∃ j o', o.toJson = .ok j ∧ Op.ofJson j = .ok o' ∧ o'.terms = o.terms ∧ o'.isView = false ∧
    (o'.hermitian = true ↔ ∀ p ∈ o.terms, p.coef.im = 0) ∧
    (∀ dim ψ ψ', o'.Applies dim ψ ψ' ↔ o.Applies dim ψ ψ') ∧
    ((o.hermitian = true ↔ ∀ p ∈ o.terms, p.coef.im = 0) → o.isView = false → o' = o) := by
  obtain ⟨j, h1, h2⟩ := op_back o
  have hh : (Op.ofTerms o.terms).hermitian = true ↔ ∀ p ∈ o.terms, p.coef.im = 0 := by
    show realCoefs o.terms = true ↔ _
    simp [realCoefs]
  refine ⟨j, _, h1, h2, rfl, rfl, hh, fun _ _ _ => Iff.rfl, ?_⟩
  intro h hv
  obtain ⟨ts, b, v⟩ := o
  simp only at hv
  subst hv
  unfold Op.ofTerms
  congr 1
  exact Bool.eq_iff_iff.2 (hh.trans h.symm)

/-- the full claim fails: `X₀ · Z₀ = -i Y₀` is flagged Hermitian by the product and read back without the flag -/
theorem C61_counterexample : ∃ o j o', o = (Op.ofTerms [⟨1, 1, 0⟩]).mul (Op.ofTerms [⟨1, 0, 1⟩]) ∧ o.toJson = .ok j ∧ Op.ofJson j = .ok o' ∧
    o.hermitian = true ∧ o'.hermitian = false := by
  obtain ⟨j, o', h1, h2, ht, -, hh, -⟩ := C61_operator_partial ((Op.ofTerms [⟨1, 1, 0⟩]).mul (Op.ofTerms [⟨1, 0, 1⟩]))
  refine ⟨_, j, o', rfl, h1, h2, C29_counterexample_product.1, ?_⟩
  rw [← Bool.not_eq_true, hh]
  intro h
  have := h (PauliOp.mul ⟨1, 1, 0⟩ ⟨1, 0, 1⟩) (List.mem_singleton.2 rfl)
  rw [mul_XZ] at this
  simp at this

/-- **C61** (batched operators).  A batched operator is read back as the identical object. -/
theorem C61_operator_batched (l : List (List PauliOp)) :
    ∃ j, (OpB.ofLists l).toJson = .ok j ∧ OpB.ofJson j = .ok (OpB.ofLists l) := by
  obtain ⟨-, -, -, ⟨r, hr, hl⟩, -, hops⟩ := C30_slots l
  obtain ⟨js, h1, h2⟩ := ops_back r
  refine ⟨.obj [(t! "Operators", .arr js)], ?_, ?_⟩
  · unfold OpB.toJson
    rw [hr, ok_bind, h1]
    rfl
  · show (do let res ← js.mapM Op.ofJson; pure (OpB.ofOps res)) = _
    rw [h2, ok_bind, hops _ (by rw [List.map_map]; exact hl)]
    rfl

/-- **C61** (state vectors).  A state of fewer than 64 qubits is read back with the same number of qubits and the same amplitude at every index. -/
theorem C61_state {n : Nat} (hn : n < 64) (ψ : U64 → ℂ) :
    ∃ s, stateOfJson (stateToJson n ψ) = .ok s ∧ s.n = n ∧ s.amplitudes.length = 2 ^ n ∧
      ∀ i, i < 2 ^ n → s.amplitudes[i]? = some (ψ (BitVec.ofNat 64 i)) := by
  refine ⟨⟨n, getAmplitudes n ψ⟩, ?_, rfl, getAmplitudes_length n ψ, fun i hi => getAmplitudes_get hi⟩
  show (do
    let dim ← dimOf n
    let l ← complexesOfJson (complexesToJson (getAmplitudes n ψ))
    if l.length ≠ dim then .error (.throw "Error: StateVector::load(const vector<ComplexType>&): invalid length of state") else .ok ⟨n, l⟩ :
      Res VecImage) = _
  rw [dimOf, if_pos hn, ok_bind, complexes_back, ok_bind, if_neg (by rw [getAmplitudes_length]; simp)]

/-- **C61** (batches of states).  A batch is read back with the same size and the same amplitudes of every state. -/
theorem C61_batch {s : Batch} (hn : s.n < 64) :
    ∃ r, batchOfJson (batchToJson s) = .ok r ∧ r.n = s.n ∧ r.size = s.size ∧ r.rows.length = s.size ∧
      ∀ b, b < s.size → ∃ l, r.rows[b]? = some l ∧ l.length = 2 ^ s.n ∧ ∀ i, i < 2 ^ s.n → l[i]? = some (s.raw b (BitVec.ofNat 64 i)) := by
  refine ⟨⟨s.size, s.n, (List.range s.size).map fun b => getAmplitudes s.n (s.raw b)⟩, ?_, rfl, rfl, by simp, ?_⟩
  · show (do
      let dim ← dimOf s.n
      let rows ← ((List.range s.size).map fun b => complexesToJson (getAmplitudes s.n (s.raw b))).mapM complexesOfJson
      if rows.length ≠ s.size then .error (.throw "Error: StateVectorBatched::load: invalid batch_size")
      else if ¬ ∀ r ∈ rows, r.length = dim then .error (.throw "Error: StateVectorBatched::load: invalid length of state")
      else .ok ⟨s.size, s.n, rows⟩ : Res BatchImage) = _
    rw [dimOf, if_pos hn, ok_bind, List.mapM_map,
      mapM_all_ok (f := complexesOfJson ∘ fun b => complexesToJson (getAmplitudes s.n (s.raw b))) (g := fun b => getAmplitudes s.n (s.raw b)) _
        fun x _ => complexes_back _, ok_bind, if_neg (by simp), if_neg]
    simp [getAmplitudes_length]
  · intro b hb
    exact ⟨getAmplitudes s.n (s.raw b), by simp [hb], getAmplitudes_length _ _, fun i hi => getAmplitudes_get hi⟩

/-- **C61** (density matrices).  A matrix of fewer than 31 qubits is read back with the same elements and the same Hermitian flag. -/
theorem C61_density {d : DM} (hn : d.n < 31) :
    ∃ j r, d.toJson = .ok j ∧ DM.ofJson j = .ok r ∧ r.n = d.n ∧ r.hermitian = d.hermitian ∧ r.rows.length = 2 ^ d.n ∧
      ∀ i, i < 2 ^ d.n → ∃ l, r.rows[i]? = some l ∧ l.length = 2 ^ d.n ∧
        ∀ k, k < 2 ^ d.n → l[k]? = some (d.raw (BitVec.ofNat 64 i, BitVec.ofNat 64 k)) := by
  have hp : 2 ^ d.n < 2 ^ 31 := Nat.pow_lt_pow_right (by omega) hn
  refine ⟨_, ⟨d.n, d.hermitian, (List.range (2 ^ d.n)).map fun r => (List.range (2 ^ d.n)).map fun c =>
    d.raw (BitVec.ofNat 64 r, BitVec.ofNat 64 c)⟩, if_neg (by omega), ?_, rfl, rfl, by simp, ?_⟩
  · show (do
      let m ← matrixOfJson (matrixToJson ⟨2 ^ d.n, 2 ^ d.n, fun r c => d.raw (BitVec.ofNat 64 r, BitVec.ofNat 64 c)⟩)
      let dim ← dimOf d.n
      if m.rows ≠ dim ∨ m.cols ≠ dim then
        .error (.throw "DensityMatrix::load(const ComplexMatrix&): Input matrix size does not match density matrix size.")
      else if ¬ ∀ r ∈ m.given, r.length = dim then .error (.ub "uninitialised element")
      else .ok ⟨d.n, d.hermitian, m.given⟩ : Res DMImage) = _
    rw [matrix_back _ (by simp) hp hp, ok_bind, dimOf, if_pos (by omega), ok_bind, if_neg (by simp), if_neg (by simp)]
  · intro i hi
    refine ⟨_, by simp [hi]; rfl, by simp, fun k hk => by simp [hk]⟩

/-- a two-qubit state, a batch and a matrix meet the hypotheses -/
example : (2 : Nat) < 64 ∧ (⟨2, 3, fun _ _ => 1⟩ : Batch).n < 64 ∧ (⟨1, true, fun _ => 1⟩ : DM).n < 31 := by decide

/-- `{X₀, 2 Z₁}`: the flag is the one the constructor computes -/
example : ((Op.ofTerms [⟨1, 1, 0⟩, ⟨2, 0, 2⟩]).hermitian = true ↔ ∀ p ∈ (Op.ofTerms [⟨1, 1, 0⟩, ⟨2, 0, 2⟩]).terms, p.coef.im = 0) ∧
    (Op.ofTerms [⟨1, 1, 0⟩, ⟨2, 0, 2⟩]).isView = false := by
  constructor
  · show realCoefs _ = true ↔ _
    simp [realCoefs, Op.ofTerms]
  · rfl

end Verif.Props
