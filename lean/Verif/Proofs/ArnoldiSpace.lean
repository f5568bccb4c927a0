import Mathlib.Analysis.InnerProductSpace.Projection.Basic
import Mathlib.Analysis.InnerProductSpace.Orthonormal
import Mathlib.LinearAlgebra.Finsupp.LinearCombination
import Mathlib.LinearAlgebra.Dimension.Constructions

/-! # Arnoldi's iteration in an inner product space -/

namespace Verif.Proofs

section
variable {E : Type*} [NormedAddCommGroup E] [InnerProductSpace ℂ E]

local notation "⟪" x ", " y "⟫" => Inner.inner ℂ x y

/-- the span of the first `m` vectors -/
def spanOf (q : Nat → E) (m : Nat) : Submodule ℂ E := Submodule.span ℂ (q '' ↑(Finset.range m))

theorem mem_spanOf {q : Nat → E} {m : Nat} {x : E} : x ∈ spanOf q m ↔ ∃ a : Nat → ℂ, ∑ i ∈ Finset.range m, a i • q i = x :=
  Submodule.mem_span_image_finset_iff_exists_fun' ℂ

theorem spanOf_self {q : Nat → E} {m i : Nat} (h : i < m) : q i ∈ spanOf q m :=
  Submodule.subset_span ⟨i, by simpa using h, rfl⟩

theorem spanOf_le {q : Nat → E} {m : Nat} {p : Submodule ℂ E} : spanOf q m ≤ p ↔ ∀ i < m, q i ∈ p := by
  unfold spanOf
  rw [Submodule.span_le]
  constructor
  · intro h i hi; exact h ⟨i, by simpa using hi, rfl⟩
  · rintro h _ ⟨i, hi, rfl⟩; exact h i (by simpa using hi)

theorem spanOf_mono {q : Nat → E} {m m' : Nat} (h : m ≤ m') : spanOf q m ≤ spanOf q m' :=
  spanOf_le.2 fun _ hi => spanOf_self (lt_of_lt_of_le hi h)

theorem spanOf_congr {q q' : Nat → E} {m : Nat} (h : ∀ i < m, q i = q' i) : spanOf q m = spanOf q' m := by
  apply le_antisymm
  · exact spanOf_le.2 fun i hi => by rw [h i hi]; exact spanOf_self hi
  · exact spanOf_le.2 fun i hi => by rw [← h i hi]; exact spanOf_self hi

theorem map_mem_span {q : Nat → E} {m : Nat} {T : E →ₗ[ℂ] E} {p : Submodule ℂ E} (h : ∀ i < m, T (q i) ∈ p) {x : E} (hx : x ∈ spanOf q m) :
    T x ∈ p := by
  obtain ⟨a, rfl⟩ := mem_spanOf.1 hx
  rw [map_sum]
  exact Submodule.sum_mem _ fun i hi => by rw [map_smul]; exact p.smul_mem _ (h i (by simpa using hi))

/-- the vectors `x, T x, T² x, …` -/
def powers (T : E →ₗ[ℂ] E) (x : E) : Nat → E := fun i => (T ^ i) x

theorem powers_map {T : E →ₗ[ℂ] E} {x : E} {m : Nat} {y : E} (h : y ∈ spanOf (powers T x) m) : T y ∈ spanOf (powers T x) (m + 1) :=
  map_mem_span (fun i hi => by
    have : T (powers T x i) = powers T x (i + 1) := by unfold powers; rw [pow_succ', Module.End.mul_apply]
    rw [this]; exact spanOf_self (by omega)) h

/-- the invariant: `m` orthonormal vectors `Q` spanning the Krylov space of `x`, `m - 1` columns of the matrix `H` of `T - μ` -/
structure ArnoldiInv (T : E →ₗ[ℂ] E) (μ : ℂ) (x : E) (Q : Nat → E) (H : Nat → Nat → ℂ) (m : Nat) : Prop where
  pos : 1 ≤ m
  ortho : ∀ i < m, ∀ j < m, ⟪Q i, Q j⟫ = if i = j then 1 else 0
  spans : spanOf Q m = spanOf (powers T x) m
  maps : ∀ i, i + 1 < m → T (Q i) ∈ spanOf Q m
  hess : ∀ i, i + 1 < m → ∀ j, H j i = if j < m then ⟪Q j, T (Q i) - μ • Q i⟫ else 0

/-- the vector left after orthogonalisation -/
noncomputable def residual (T : E →ₗ[ℂ] E) (μ : ℂ) (Q : Nat → E) (m : Nat) : E :=
  T (Q (m - 1)) - μ • Q (m - 1) - ∑ j ∈ Finset.range m, ⟪Q j, T (Q (m - 1)) - μ • Q (m - 1)⟫ • Q j

variable {T : E →ₗ[ℂ] E} {μ : ℂ} {x : E} {Q : Nat → E} {H : Nat → Nat → ℂ} {m : Nat}

theorem inner_sum_ortho (h : ∀ i < m, ∀ j < m, ⟪Q i, Q j⟫ = if i = j then 1 else 0) (a : Nat → ℂ) {i : Nat} (hi : i < m) :
    ⟪Q i, ∑ j ∈ Finset.range m, a j • Q j⟫ = a i := by
  rw [inner_sum, Finset.sum_eq_single i]
  · rw [inner_smul_right, h i hi i hi, if_pos rfl, mul_one]
  · intro j hj hne
    rw [inner_smul_right, h i hi j (by simpa using hj), if_neg (Ne.symm hne), mul_zero]
  · intro h; exact absurd (Finset.mem_range.2 hi) h

theorem residual_ortho (h : ArnoldiInv T μ x Q H m) {i : Nat} (hi : i < m) : ⟪Q i, residual T μ Q m⟫ = 0 := by
  unfold residual
  rw [inner_sub_right, inner_sum_ortho h.ortho _ hi, sub_self]

theorem residual_ortho_span (h : ArnoldiInv T μ x Q H m) {y : E} (hy : y ∈ spanOf Q m) : ⟪y, residual T μ Q m⟫ = 0 := by
  obtain ⟨a, rfl⟩ := mem_spanOf.1 hy
  rw [sum_inner]
  exact Finset.sum_eq_zero fun i hi => by rw [inner_smul_left, residual_ortho h (by simpa using hi), mul_zero]

theorem residual_sum_mem : ∑ j ∈ Finset.range m, ⟪Q j, T (Q (m - 1)) - μ • Q (m - 1)⟫ • Q j ∈ spanOf Q m :=
  Submodule.sum_mem _ fun i hi => Submodule.smul_mem _ _ (spanOf_self (by simpa using hi))

theorem map_last (_h : ArnoldiInv T μ x Q H m) :
    T (Q (m - 1)) = residual T μ Q m + (μ • Q (m - 1) + ∑ j ∈ Finset.range m, ⟪Q j, T (Q (m - 1)) - μ • Q (m - 1)⟫ • Q j) := by
  unfold residual; abel

theorem rest_mem (h : ArnoldiInv T μ x Q H m) :
    μ • Q (m - 1) + ∑ j ∈ Finset.range m, ⟪Q j, T (Q (m - 1)) - μ • Q (m - 1)⟫ • Q j ∈ spanOf Q m :=
  Submodule.add_mem _ (Submodule.smul_mem _ _ (spanOf_self (by have := h.pos; omega))) residual_sum_mem

theorem residual_zero_map (h : ArnoldiInv T μ x Q H m) (h0 : residual T μ Q m = 0) {y : E} (hy : y ∈ spanOf Q m) : T y ∈ spanOf Q m := by
  refine map_mem_span (fun i hi => ?_) hy
  by_cases e : i + 1 < m
  · exact h.maps i e
  · have : i = m - 1 := by omega
    rw [this, map_last h, h0, zero_add]
    exact rest_mem h

theorem powers_succ_mem (h : ArnoldiInv T μ x Q H m) : powers T x m ∈ (spanOf Q m).map T := by
  refine ⟨powers T x (m - 1), ?_, ?_⟩
  · rw [h.spans]; exact spanOf_self (by have := h.pos; omega)
  · unfold powers
    rw [← Module.End.mul_apply, ← pow_succ', show m - 1 + 1 = m by have := h.pos; omega]

/-- the orthogonalisation leaves nothing exactly if the next power depends on the previous ones -/
theorem residual_zero_iff (h : ArnoldiInv T μ x Q H m) : residual T μ Q m = 0 ↔ powers T x m ∈ spanOf (powers T x) m := by
  constructor
  · intro h0
    rw [← h.spans]
    obtain ⟨y, hy, e⟩ := powers_succ_mem h
    rw [← e]
    exact residual_zero_map h h0 hy
  · intro hm
    have hK : spanOf (powers T x) (m + 1) ≤ spanOf (powers T x) m := spanOf_le.2 fun i hi => by
      by_cases e : i = m
      · rw [e]; exact hm
      · exact spanOf_self (by omega)
    have h1 : residual T μ Q m ∈ spanOf Q m := by
      have hq : T (Q (m - 1)) ∈ spanOf Q m := by
        rw [h.spans]
        apply hK
        apply powers_map
        rw [← h.spans]
        exact spanOf_self (by have := h.pos; omega)
      have e := map_last h
      have : residual T μ Q m = T (Q (m - 1)) - (μ • Q (m - 1) + ∑ j ∈ Finset.range m, ⟪Q j, T (Q (m - 1)) - μ • Q (m - 1)⟫ • Q j) := by
        rw [← sub_eq_iff_eq_add] at e; exact e.symm
      rw [this]
      exact Submodule.sub_mem _ hq (rest_mem h)
    have := residual_ortho_span h h1
    exact inner_self_eq_zero.1 this

/-- one iteration keeps the invariant -/
theorem arnoldi_step (h : ArnoldiInv T μ x Q H m) (h0 : residual T μ Q m ≠ 0) {Q' : Nat → E} {H' : Nat → Nat → ℂ}
    (hQ : ∀ i < m, Q' i = Q i) (hQm : Q' m = ((‖residual T μ Q m‖⁻¹ : ℝ) : ℂ) • residual T μ Q m)
    (hH : ∀ i, i + 1 < m → ∀ j, H' j i = H j i)
    (hHm : ∀ j, H' j (m - 1) = if j < m then ⟪Q j, T (Q (m - 1)) - μ • Q (m - 1)⟫ else if j = m then (‖residual T μ Q m‖ : ℂ) else 0) :
    ArnoldiInv T μ x Q' H' (m + 1) := by
  set w := residual T μ Q m with hw
  have hwn : ‖w‖ ≠ 0 := norm_ne_zero_iff.2 h0
  have hpos := h.pos
  have hspan : spanOf Q' m = spanOf Q m := spanOf_congr hQ
  have hle : spanOf Q m ≤ spanOf Q' (m + 1) := by rw [← hspan]; exact spanOf_mono (by omega)
  have hwm : w ∈ spanOf Q' (m + 1) := by
    have : w = (‖w‖ : ℂ) • Q' m := by
      rw [hQm, smul_smul, ← Complex.ofReal_mul, mul_inv_cancel₀ hwn, Complex.ofReal_one, one_smul]
    rw [this]
    exact Submodule.smul_mem _ _ (spanOf_self (by omega))
  have hmaps : ∀ i < m, T (Q i) ∈ spanOf Q' (m + 1) := by
    intro i hi
    by_cases e : i + 1 < m
    · exact hle (h.maps i e)
    · have : i = m - 1 := by omega
      rw [this, map_last h]
      exact Submodule.add_mem _ hwm (hle (rest_mem h))
  have hmm : ⟪w, w⟫ = (‖w‖ : ℂ) ^ 2 := by rw [inner_self_eq_norm_sq_to_K]; rfl
  have horth : ∀ i < m, ⟪Q i, w⟫ = 0 := fun i hi => residual_ortho h hi
  have horth' : ∀ i < m, ⟪w, Q i⟫ = 0 := fun i hi => by rw [← inner_conj_symm, horth i hi, map_zero]
  refine ⟨by omega, ?_, ?_, ?_, ?_⟩
  · intro i hi j hj
    by_cases hi' : i = m <;> by_cases hj' : j = m
    · subst hi'; subst hj'
      rw [if_pos rfl, hQm, inner_smul_left, inner_smul_right, hmm, Complex.conj_ofReal, Complex.ofReal_inv]
      have : (‖w‖ : ℂ) ≠ 0 := by exact_mod_cast hwn
      field_simp
    · subst hi'
      rw [if_neg (by omega), hQm, hQ j (by omega), inner_smul_left, horth' j (by omega), mul_zero]
    · subst hj'
      rw [if_neg (by omega), hQm, hQ i (by omega), inner_smul_right, horth i (by omega), mul_zero]
    · rw [hQ i (by omega), hQ j (by omega)]
      exact h.ortho i (by omega) j (by omega)
  · apply le_antisymm
    · refine spanOf_le.2 fun i hi => ?_
      by_cases e : i = m
      · subst e
        rw [hQm]
        apply Submodule.smul_mem
        have e := map_last h
        rw [← hw] at e
        have : w = T (Q (i - 1)) - (μ • Q (i - 1) + ∑ j ∈ Finset.range i, ⟪Q j, T (Q (i - 1)) - μ • Q (i - 1)⟫ • Q j) := by
          rw [← sub_eq_iff_eq_add] at e; exact e.symm
        rw [this]
        apply Submodule.sub_mem
        · apply powers_map
          rw [← h.spans]
          exact spanOf_self (by omega)
        · apply spanOf_mono (Nat.le_succ i)
          rw [← h.spans]
          exact rest_mem h
      · rw [hQ i (by omega)]
        apply spanOf_mono (Nat.le_succ m)
        rw [← h.spans]
        exact spanOf_self (by omega)
    · refine spanOf_le.2 fun i hi => ?_
      by_cases e : i = m
      · subst e
        obtain ⟨y, hy, e⟩ := powers_succ_mem h
        rw [← e]
        exact map_mem_span hmaps hy
      · apply hle
        rw [h.spans]
        exact spanOf_self (by omega)
  · intro i hi
    rw [hQ i (by omega)]
    exact hmaps i (by omega)
  · intro i hi j
    rw [hQ i (by omega)]
    by_cases e : i + 1 < m
    · rw [hH i e, h.hess i e]
      by_cases hj : j < m
      · rw [if_pos hj, if_pos (by omega), hQ j hj]
      · rw [if_neg hj]
        by_cases hj' : j < m + 1
        · have : j = m := by omega
          subst this
          rw [if_pos hj', hQm, inner_smul_left]
          have hmem : T (Q i) - μ • Q i ∈ spanOf Q j :=
            Submodule.sub_mem _ (h.maps i e) (Submodule.smul_mem _ _ (spanOf_self (by omega)))
          have := residual_ortho_span h hmem
          rw [← hw] at this
          rw [← inner_conj_symm, this, map_zero, mul_zero]
        · rw [if_neg hj']
    · have hi' : i = m - 1 := by omega
      rw [hi', hHm]
      by_cases hj : j < m
      · rw [if_pos hj, if_pos (by omega), hQ j hj]
      · rw [if_neg hj]
        by_cases hj' : j = m
        · subst hj'
          rw [if_pos rfl, if_pos (by omega), hQm, inner_smul_left]
          have e2 : T (Q (j - 1)) - μ • Q (j - 1) = w + ∑ l ∈ Finset.range j, ⟪Q l, T (Q (j - 1)) - μ • Q (j - 1)⟫ • Q l := by
            rw [hw]; unfold residual; abel
          have e3 : ⟪w, ∑ l ∈ Finset.range j, ⟪Q l, T (Q (j - 1)) - μ • Q (j - 1)⟫ • Q l⟫ = 0 := by
            rw [inner_sum]
            exact Finset.sum_eq_zero fun l hl => by rw [inner_smul_right, horth' l (by simpa using hl), mul_zero]
          rw [e2, inner_add_right, e3, add_zero, hmm, Complex.conj_ofReal, Complex.ofReal_inv]
          have : (‖w‖ : ℂ) ≠ 0 := by exact_mod_cast hwn
          field_simp
        · rw [if_neg hj', if_neg (by omega)]

/-- more orthonormal vectors than dimensions cannot exist -/
theorem ortho_card [FiniteDimensional ℂ E] (h : ∀ i < m, ∀ j < m, ⟪Q i, Q j⟫ = if i = j then (1 : ℂ) else 0) : m ≤ Module.finrank ℂ E := by
  have ho : Orthonormal ℂ (fun i : Fin m => Q i) := by
    rw [orthonormal_iff_ite]
    intro i j
    rw [h i i.2 j j.2]
    simp only [Fin.ext_iff]
  have := ho.linearIndependent.fintype_card_le_finrank
  simpa using this

end

end Verif.Proofs
