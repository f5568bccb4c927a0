import Verif.Proofs.ArnoldiSpace
import Mathlib.Analysis.Matrix.PosDef
import Mathlib.LinearAlgebra.Matrix.Charpoly.Eigs
import Mathlib.LinearAlgebra.Matrix.Charpoly.Coeff
import Mathlib.Analysis.Complex.Polynomial.Basic

/-! # Ritz values: eigenvalues of the compression of an operator to a subspace -/

namespace Verif.Proofs

open scoped Matrix ComplexOrder

/-- the least eigenvalue of a Hermitian matrix bounds its quadratic form -/
theorem hermitian_min {k : Nat} {C : Matrix (Fin k) (Fin k) ℂ} (hC : C.IsHermitian) {l : ℝ}
    (h : ∀ (e : ℂ) (x : Fin k → ℂ), x ≠ 0 → C *ᵥ x = e • x → l ≤ e.re) (x : Fin k → ℂ) :
    l * ∑ i, Complex.normSq (x i) ≤ (star x ⬝ᵥ C *ᵥ x).re := by
  have hD : (C - (l : ℂ) • (1 : Matrix (Fin k) (Fin k) ℂ)).IsHermitian := by
    apply Matrix.IsHermitian.sub hC
    unfold Matrix.IsHermitian
    rw [Matrix.conjTranspose_smul, Matrix.conjTranspose_one]
    simp
  have hp : (C - (l : ℂ) • (1 : Matrix (Fin k) (Fin k) ℂ)).PosSemidef := by
    rw [hD.posSemidef_iff_eigenvalues_nonneg]
    intro j
    have e := hD.mulVec_eigenvectorBasis j
    have hne : (hD.eigenvectorBasis j).ofLp ≠ 0 := by
      intro h0
      have : hD.eigenvectorBasis j = 0 := by
        ext i; exact congrFun h0 i
      have h1 := hD.eigenvectorBasis.orthonormal.1 j
      rw [this, norm_zero] at h1
      exact zero_ne_one h1
    have := h ((hD.eigenvalues j : ℂ) + l) _ hne (by
      rw [Matrix.sub_mulVec, Matrix.smul_mulVec, Matrix.one_mulVec, sub_eq_iff_eq_add] at e
      rw [e, add_smul]
      congr 1)
    simp at this
    exact this
  have := hp.dotProduct_mulVec_nonneg x
  rw [Matrix.sub_mulVec, Matrix.smul_mulVec, Matrix.one_mulVec, dotProduct_sub, dotProduct_smul, Complex.le_def] at this
  have h2 := this.1
  rw [Complex.zero_re, Complex.sub_re, smul_eq_mul, Complex.re_ofReal_mul] at h2
  have h3 : (star x ⬝ᵥ x).re = ∑ i, Complex.normSq (x i) := by
    unfold dotProduct
    rw [Complex.re_sum]
    apply Finset.sum_congr rfl
    intro i _
    rw [Pi.star_apply, Complex.star_def, mul_comm, Complex.mul_conj, Complex.ofReal_re]
  rw [h3] at h2
  linarith

section
variable {E : Type*} [NormedAddCommGroup E] [InnerProductSpace ℂ E]
local notation "⟪" x ", " y "⟫" => Inner.inner ℂ x y

variable {T : E →ₗ[ℂ] E} {μ : ℂ} {Q : Nat → E} {H : Nat → Nat → ℂ} {k : Nat}

/-- orthonormal vectors and the matrix of `T - μ` between them -/
structure Compressed (T : E →ₗ[ℂ] E) (μ : ℂ) (Q : Nat → E) (H : Nat → Nat → ℂ) (k : Nat) : Prop where
  ortho : ∀ i < k, ∀ j < k, ⟪Q i, Q j⟫ = if i = j then 1 else 0
  hess : ∀ i < k, ∀ j < k, H j i = ⟪Q j, T (Q i) - μ • Q i⟫

noncomputable def combination (Q : Nat → E) (k : Nat) (a : Nat → ℂ) : E := ∑ i ∈ Finset.range k, a i • Q i

theorem combination_normSq (h : ∀ i < k, ∀ j < k, ⟪Q i, Q j⟫ = if i = j then (1 : ℂ) else 0) (a : Nat → ℂ) :
    ‖combination Q k a‖ ^ 2 = ∑ i ∈ Finset.range k, Complex.normSq (a i) := by
  have e : ((‖combination Q k a‖ ^ 2 : ℝ) : ℂ) = ((∑ i ∈ Finset.range k, Complex.normSq (a i) : ℝ) : ℂ) := by
    have : ((‖combination Q k a‖ ^ 2 : ℝ) : ℂ) = ⟪combination Q k a, combination Q k a⟫ := by
      rw [inner_self_eq_norm_sq_to_K]; push_cast; rfl
    rw [this]
    conv_lhs => unfold combination
    rw [sum_inner]
    push_cast
    apply Finset.sum_congr rfl
    intro i hi
    rw [inner_smul_left, inner_sum_ortho h a (Finset.mem_range.1 hi), mul_comm, Complex.mul_conj]
  exact_mod_cast e

/-- the components of `(T - μ) g` along the vectors -/
theorem component (hc : Compressed T μ Q H k) (a : Nat → ℂ) {r : Nat} (hr : r < k) :
    ⟪Q r, T (combination Q k a) - μ • combination Q k a⟫ = ∑ i ∈ Finset.range k, H r i * a i := by
  have : T (combination Q k a) - μ • combination Q k a = ∑ i ∈ Finset.range k, a i • (T (Q i) - μ • Q i) := by
    unfold combination
    rw [map_sum, Finset.smul_sum, ← Finset.sum_sub_distrib]
    apply Finset.sum_congr rfl
    intro i _
    rw [map_smul, smul_sub, smul_comm]
  rw [this, inner_sum]
  apply Finset.sum_congr rfl
  intro i hi
  rw [inner_smul_right, hc.hess i (Finset.mem_range.1 hi) r hr, mul_comm]

theorem inner_combination (a : Nat → ℂ) (y : E) : ⟪combination Q k a, y⟫ = ∑ r ∈ Finset.range k, (starRingEnd ℂ) (a r) * ⟪Q r, y⟫ := by
  unfold combination
  rw [sum_inner]
  exact Finset.sum_congr rfl fun i _ => by rw [inner_smul_left]

/-- the Ritz value is the energy of the Ritz vector -/
theorem ritz_energy (hc : Compressed T μ Q H k) {a : Nat → ℂ} {θ : ℂ}
    (ha : ∀ r < k, ∑ i ∈ Finset.range k, H r i * a i = θ * a r) :
    ⟪combination Q k a, T (combination Q k a)⟫ = (θ + μ) * (‖combination Q k a‖ ^ 2 : ℝ) := by
  have h1 : ⟪combination Q k a, T (combination Q k a) - μ • combination Q k a⟫ = θ * (‖combination Q k a‖ ^ 2 : ℝ) := by
    rw [inner_combination, combination_normSq hc.ortho, Complex.ofReal_sum, Finset.mul_sum]
    apply Finset.sum_congr rfl
    intro r hr
    rw [component hc a (Finset.mem_range.1 hr), ha r (Finset.mem_range.1 hr), ← Complex.mul_conj]
    ring
  have h2 : ⟪combination Q k a, combination Q k a⟫ = (‖combination Q k a‖ ^ 2 : ℝ) := by
    rw [inner_self_eq_norm_sq_to_K]; push_cast; rfl
  rw [inner_sub_right, inner_smul_right, h2, sub_eq_iff_eq_add] at h1
  rw [h1]; ring

/-- the least Ritz value is the least energy in the subspace -/
theorem ritz_min (hc : Compressed T μ Q H k) (hT : T.IsSymmetric) {l : ℝ}
    (h : ∀ (e : ℂ) (a : Nat → ℂ), (∃ r < k, a r ≠ 0) → (∀ r < k, ∑ i ∈ Finset.range k, H r i * a i = e * a r) → l ≤ (e + μ).re)
    (a : Nat → ℂ) : l * ‖combination Q k a‖ ^ 2 ≤ (⟪combination Q k a, T (combination Q k a)⟫).re := by
  let C : Matrix (Fin k) (Fin k) ℂ := fun j i => ⟪Q j, T (Q i)⟫
  have hC : C.IsHermitian := by
    apply Matrix.IsHermitian.ext
    intro i j
    change star ⟪Q j, T (Q i)⟫ = ⟪Q i, T (Q j)⟫
    rw [Complex.star_def, inner_conj_symm, hT]
  have hCH : ∀ j i : Fin k, C j i = H j i + if j = i then μ else 0 := by
    intro j i
    rw [hc.hess i i.2 j j.2, inner_sub_right, inner_smul_right, hc.ortho j j.2 i i.2]
    simp only [Fin.ext_iff]
    split <;> simp [C]
  have hmul : ∀ (b : Nat → ℂ) (r : Fin k), (C *ᵥ fun i => b i) r = ∑ i ∈ Finset.range k, H r i * b i + μ * b r := by
    intro b r
    change ∑ i : Fin k, C r i * b i = _
    simp only [hCH, add_mul, Finset.sum_add_distrib, ite_mul, zero_mul, Finset.sum_ite_eq, Finset.mem_univ, if_true]
    rw [Finset.sum_range]
  have hm := hermitian_min hC (l := l) (fun e x hx hex => by
    let b : Nat → ℂ := fun i => if hi : i < k then x ⟨i, hi⟩ else 0
    have hb : (fun i : Fin k => b i) = x := by funext i; simp [b]
    have := h (e - μ) b (by
      by_contra hcon
      push Not at hcon
      exact hx (by funext i; rw [← hb]; exact hcon i i.2)) (fun r hr => by
        have h1 := hmul b ⟨r, hr⟩
        rw [hb, hex] at h1
        have h2 : (e • x) ⟨r, hr⟩ = e * b r := by rw [← hb]; rfl
        rw [h2] at h1
        rw [sub_mul, h1]; simp)
    simpa using this) (fun i => a i)
  have e1 : ∑ i : Fin k, Complex.normSq (a i) = ‖combination Q k a‖ ^ 2 := by rw [combination_normSq hc.ortho, Finset.sum_range]
  have e2 : (star fun i : Fin k => a i) ⬝ᵥ C *ᵥ (fun i : Fin k => a i) = ⟪combination Q k a, T (combination Q k a)⟫ := by
    rw [inner_combination, Finset.sum_range]
    unfold dotProduct
    apply Finset.sum_congr rfl
    intro r _
    rw [hmul, ← component hc a r.2, inner_sub_right, inner_smul_right]
    have := inner_sum_ortho hc.ortho a r.2
    change ⟪Q r, combination Q k a⟫ = _ at this
    rw [this, Pi.star_apply, Complex.star_def]
    ring
  rw [e1] at hm
  rw [← e2]
  exact hm

/-- in an invariant subspace the Ritz vector is an eigenvector -/
theorem ritz_exact (hc : Compressed T μ Q H k) (hinv : ∀ y ∈ spanOf Q k, T y ∈ spanOf Q k) {a : Nat → ℂ} {θ : ℂ}
    (ha : ∀ r < k, ∑ i ∈ Finset.range k, H r i * a i = θ * a r) : T (combination Q k a) = (θ + μ) • combination Q k a := by
  have hg : combination Q k a ∈ spanOf Q k := mem_spanOf.2 ⟨a, rfl⟩
  have hm : T (combination Q k a) - μ • combination Q k a ∈ spanOf Q k := Submodule.sub_mem _ (hinv _ hg) (Submodule.smul_mem _ _ hg)
  obtain ⟨b, hb⟩ := mem_spanOf.1 hm
  have hb' : ∀ r < k, b r = θ * a r := by
    intro r hr
    rw [← inner_sum_ortho hc.ortho b hr, hb, component hc a hr, ha r hr]
  have : T (combination Q k a) - μ • combination Q k a = θ • combination Q k a := by
    rw [← hb]
    unfold combination
    rw [Finset.smul_sum]
    exact Finset.sum_congr rfl fun r hr => by rw [hb' r (Finset.mem_range.1 hr), smul_smul]
  rw [sub_eq_iff_eq_add] at this
  rw [this, add_smul]

/-- an eigenvector that is not orthogonal to an invariant subspace has, in the subspace, a vector with the same energy -/
theorem ritz_overlap (hc : Compressed T μ Q H k) (hT : T.IsSymmetric) (hinv : ∀ y ∈ spanOf Q k, T y ∈ spanOf Q k) {v x : E} {e : ℝ}
    (hv : T v = (e : ℂ) • v) (hx : x ∈ spanOf Q k) (hov : ⟪v, x⟫ ≠ 0) :
    ∃ a : Nat → ℂ, combination Q k a ≠ 0 ∧ ⟪combination Q k a, T (combination Q k a)⟫ = e * (‖combination Q k a‖ ^ 2 : ℝ) := by
  let a : Nat → ℂ := fun i => ⟪Q i, v⟫
  have hproj : ∀ i < k, ⟪Q i, combination Q k a⟫ = ⟪Q i, v⟫ := fun i hi => inner_sum_ortho hc.ortho a hi
  have hprojs : ∀ y ∈ spanOf Q k, ⟪y, combination Q k a⟫ = ⟪y, v⟫ := by
    intro y hy
    obtain ⟨b, rfl⟩ := mem_spanOf.1 hy
    rw [sum_inner, sum_inner]
    exact Finset.sum_congr rfl fun i hi => by rw [inner_smul_left, inner_smul_left, hproj i (Finset.mem_range.1 hi)]
  have hg : combination Q k a ∈ spanOf Q k := mem_spanOf.2 ⟨a, rfl⟩
  refine ⟨a, ?_, ?_⟩
  · intro h0
    have := hprojs x hx
    rw [h0, inner_zero_right] at this
    exact hov (by rw [← inner_conj_symm, ← this, map_zero])
  · have h1 := hprojs _ (hinv _ hg)
    rw [← hT, h1, hT, hv, inner_smul_right, ← hprojs _ hg, inner_self_eq_norm_sq_to_K]
    push_cast; rfl

end

/-- every complex matrix has a list of eigenvalues with eigenvectors -/
theorem eigen_exists (k : Nat) (H : Nat → Nat → ℂ) :
    ∃ (vals : List ℂ) (X : Nat → Nat → ℂ), vals.length = k ∧
      (∀ c (hc : c < vals.length), (∃ r < k, X r c ≠ 0) ∧ ∀ r < k, ∑ i ∈ Finset.range k, H r i * X i c = vals[c] * X r c) ∧
      ∀ (θ : ℂ) (x : Nat → ℂ), (∃ r < k, x r ≠ 0) → (∀ r < k, ∑ i ∈ Finset.range k, H r i * x i = θ * x r) → θ ∈ vals := by
  let M : Matrix (Fin k) (Fin k) ℂ := fun j i => H j i
  have hroot : ∀ θ : ℂ, M.charpoly.IsRoot θ ↔ ∃ v : Fin k → ℂ, v ≠ 0 ∧ M *ᵥ v = θ • v := by
    intro θ
    unfold Polynomial.IsRoot
    rw [Matrix.eval_charpoly, ← Matrix.exists_mulVec_eq_zero_iff]
    constructor
    · rintro ⟨v, hv, h⟩
      refine ⟨v, hv, ?_⟩
      rw [Matrix.sub_mulVec, sub_eq_zero] at h
      rw [← h]
      funext i
      simp [Matrix.scalar_apply, Matrix.mulVec_diagonal]
    · rintro ⟨v, hv, h⟩
      refine ⟨v, hv, ?_⟩
      rw [Matrix.sub_mulVec, sub_eq_zero, h]
      funext i
      simp [Matrix.scalar_apply, Matrix.mulVec_diagonal]
  have hcard : M.charpoly.roots.card = k := by
    rw [← IsAlgClosed.splits M.charpoly |>.natDegree_eq_card_roots, Matrix.charpoly_natDegree_eq_dim, Fintype.card_fin]
  have hne : M.charpoly ≠ 0 := (Matrix.charpoly_monic M).ne_zero
  let vals := M.charpoly.roots.toList
  have hlen : vals.length = k := by rw [Multiset.length_toList, hcard]
  have hvec : ∀ c : Fin vals.length, ∃ v : Fin k → ℂ, v ≠ 0 ∧ M *ᵥ v = vals[c] • v := by
    intro c
    rw [← hroot]
    have : vals[c] ∈ vals := List.getElem_mem c.2
    rw [Multiset.mem_toList, Polynomial.mem_roots hne] at this
    exact this
  choose V hV0 hV using hvec
  have hmul : ∀ (x : Nat → ℂ) (r : Fin k), (M *ᵥ fun i => x i) r = ∑ i ∈ Finset.range k, H r i * x i := by
    intro x r
    change ∑ i : Fin k, H r i * x i = _
    rw [Finset.sum_range]
  let X : Nat → Nat → ℂ := fun r c => if hc : c < vals.length then if hr : r < k then V ⟨c, hc⟩ ⟨r, hr⟩ else 0 else 0
  refine ⟨vals, X, hlen, fun c hc => ?_, fun θ x hx h => ?_⟩
  · have hX : (fun i : Fin k => X i c) = V ⟨c, hc⟩ := by funext i; simp [X, hc]
    constructor
    · by_contra hcon
      push Not at hcon
      exact hV0 ⟨c, hc⟩ (by rw [← hX]; funext i; exact hcon i i.2)
    · intro r hr
      have := hmul (fun i => X i c) ⟨r, hr⟩
      rw [← this]
      change (M *ᵥ fun i : Fin k => X i c) ⟨r, hr⟩ = _
      rw [hX, hV ⟨c, hc⟩]
      change vals[c] * V ⟨c, hc⟩ ⟨r, hr⟩ = _
      simp [X, hc, hr]
  · rw [Multiset.mem_toList, Polynomial.mem_roots hne, hroot]
    refine ⟨fun i => x i, ?_, ?_⟩
    · obtain ⟨r, hr, h0⟩ := hx
      intro e
      exact h0 (congrFun e ⟨r, hr⟩)
    · funext r
      rw [hmul, h r r.2]
      rfl

end Verif.Proofs
