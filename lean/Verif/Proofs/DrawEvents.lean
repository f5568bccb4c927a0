import Verif.Spec.Ensemble
import Mathlib.MeasureTheory.Integral.Bochner.Set

/-! # Probabilities of finitely many draws falling into given intervals -/

namespace Verif.Proofs
open Verif Verif.Spec Verif.Model MeasureTheory ProbabilityTheory

/-- the draws from number `pos` on fall into the intervals -/
def Falls (I : List (ℝ × ℝ)) (r : ℕ → ℝ) (pos : Nat) : Prop := ∀ k (hk : k < I.length), I[k].1 ≤ r (pos + k) ∧ r (pos + k) < I[k].2

/-- intervals inside `[0, 1]` -/
def Inside (I : List (ℝ × ℝ)) : Prop := ∀ p ∈ I, 0 ≤ p.1 ∧ p.1 ≤ p.2 ∧ p.2 ≤ 1

/-- the product of the lengths -/
noncomputable def extent (I : List (ℝ × ℝ)) : ℝ := (I.map fun p => p.2 - p.1).prod

theorem falls_nil (r : ℕ → ℝ) (pos : Nat) : Falls [] r pos := fun k hk => by simp at hk

theorem falls_one (p : ℝ × ℝ) (r : ℕ → ℝ) (pos : Nat) : Falls [p] r pos ↔ p.1 ≤ r pos ∧ r pos < p.2 := by
  constructor
  · intro h; exact h 0 (by simp)
  · intro h k hk
    obtain rfl : k = 0 := by simpa using hk
    exact h

theorem falls_append (I J : List (ℝ × ℝ)) (r : ℕ → ℝ) (pos : Nat) :
    Falls (I ++ J) r pos ↔ Falls I r pos ∧ Falls J r (pos + I.length) := by
  constructor
  · intro h
    refine ⟨fun k hk => ?_, fun k hk => ?_⟩
    · have := h k (by rw [List.length_append]; omega)
      rwa [List.getElem_append_left hk] at this
    · have := h (I.length + k) (by rw [List.length_append]; omega)
      rw [List.getElem_append_right (by omega)] at this
      simpa [Nat.add_assoc] using this
  · rintro ⟨h1, h2⟩ k hk
    rw [List.length_append] at hk
    by_cases hk' : k < I.length
    · rw [List.getElem_append_left hk']; exact h1 k hk'
    · rw [List.getElem_append_right (by omega)]
      have := h2 (k - I.length) (by omega)
      rwa [Nat.add_assoc, Nat.add_sub_cancel' (by omega)] at this

theorem extent_append (I J : List (ℝ × ℝ)) : extent (I ++ J) = extent I * extent J := by
  unfold extent; rw [List.map_append, List.prod_append]

theorem extent_nonneg {I : List (ℝ × ℝ)} (h : Inside I) : 0 ≤ extent I := by
  unfold extent
  refine List.prod_nonneg fun x hx => ?_
  obtain ⟨p, hp, rfl⟩ := List.mem_map.1 hx
  have := h p hp
  linarith [this.2.1]

variable {Ω : Type*} [MeasurableSpace Ω] {μ : Measure Ω} {rnd : ℕ → Ω → ℝ}

theorem draws_prob (h : UniformDraws μ rnd) : IsProbabilityMeasure μ := by
  have := congrArg (fun m : Measure ℝ => m Set.univ) (h.law 0)
  simp only [Measure.map_apply (h.meas 0) MeasurableSet.univ, Set.preimage_univ] at this
  constructor
  rw [this]
  simp

theorem draw_law (h : UniformDraws μ rnd) (i : Nat) {a b : ℝ} (h0 : 0 ≤ a) (h1 : b ≤ 1) :
    μ (rnd i ⁻¹' Set.Ico a b) = ENNReal.ofReal (b - a) := by
  rw [← Measure.map_apply (h.meas i) measurableSet_Ico, h.law, Measure.restrict_apply measurableSet_Ico,
    Set.inter_eq_left.2 (Set.Ico_subset_Ico h0 h1), Real.volume_Ico]

theorem draws_unit (h : UniformDraws μ rnd) : ∀ᵐ ω ∂μ, ∀ i, 0 ≤ rnd i ω ∧ rnd i ω < 1 := by
  rw [ae_all_iff]
  intro i
  have : ∀ᵐ x ∂(μ.map (rnd i)), x ∈ Set.Ico (0 : ℝ) 1 := by
    rw [h.law]
    exact ae_restrict_mem measurableSet_Ico
  exact ae_of_ae_map (h.meas i).aemeasurable this

omit [MeasurableSpace Ω] in
theorem falls_set (I : List (ℝ × ℝ)) (pos : Nat) : {ω | Falls I (fun i => rnd i ω) pos} =
    ⋂ k ∈ (Finset.univ : Finset (Fin I.length)), rnd (pos + k) ⁻¹' Set.Ico I[k].1 I[k].2 := by
  ext ω
  simp only [Set.mem_ofPred_eq, Set.mem_iInter, Set.mem_preimage, Set.mem_Ico, Finset.mem_univ, forall_true_left]
  exact ⟨fun h k => h k k.2, fun h k hk => h ⟨k, hk⟩⟩

theorem falls_measurable (h : UniformDraws μ rnd) (I : List (ℝ × ℝ)) (pos : Nat) : MeasurableSet {ω | Falls I (fun i => rnd i ω) pos} := by
  rw [falls_set]
  exact Finset.measurableSet_biInter _ fun k _ => h.meas _ measurableSet_Ico

theorem falls_prob (h : UniformDraws μ rnd) {I : List (ℝ × ℝ)} (hI : Inside I) (pos : Nat) :
    μ.real {ω | Falls I (fun i => rnd i ω) pos} = extent I := by
  rw [falls_set]
  have hind : iIndepFun (fun k : Fin I.length => rnd (pos + k)) μ :=
    h.indep.precomp (g := fun k : Fin I.length => pos + (k : ℕ)) fun a b hab => by
      apply Fin.ext; simpa using hab
  rw [Measure.real, hind.measure_inter_preimage_eq_mul _ fun k _ => measurableSet_Ico, ENNReal.toReal_prod]
  have : ∀ k ∈ (Finset.univ : Finset (Fin I.length)), (μ (rnd (pos + k) ⁻¹' Set.Ico I[k].1 I[k].2)).toReal = I[k].2 - I[k].1 := by
    intro k _
    obtain ⟨h0, h1, h2⟩ := hI I[k] (List.getElem_mem k.2)
    rw [draw_law h _ h0 h2, ENNReal.toReal_ofReal (by linarith)]
  rw [Finset.prod_congr rfl this, extent]
  have e := Fin.prod_univ_getElem (I.map fun p => p.2 - p.1)
  rw [← e]
  refine Fintype.prod_equiv (finCongr (by simp)) _ _ fun k => ?_
  simp

/-- expectation of a quantity that takes finitely many values, decided by the draws -/
theorem expect_paths (h : UniformDraws μ rnd) {α : Type*} (P : List (List (ℝ × ℝ) × α)) (hP : ∀ p ∈ P, Inside p.1) (G : α → ℂ)
    (X : Ω → ℂ) (hX : ∀ᵐ ω ∂μ, X ω = (P.map fun p => open Classical in if Falls p.1 (fun i => rnd i ω) 0 then G p.2 else 0).sum) :
    Integrable X μ ∧ ∫ ω, X ω ∂μ = (P.map fun p => (extent p.1 : ℂ) * G p.2).sum := by
  classical
  have hprob := draws_prob h
  have key : ∀ P : List (List (ℝ × ℝ) × α), (∀ p ∈ P, Inside p.1) →
      Integrable (fun ω => (P.map fun p => if Falls p.1 (fun i => rnd i ω) 0 then G p.2 else 0).sum) μ ∧
      ∫ ω, (P.map fun p => if Falls p.1 (fun i => rnd i ω) 0 then G p.2 else 0).sum ∂μ = (P.map fun p => (extent p.1 : ℂ) * G p.2).sum := by
    intro P hP
    induction P with
    | nil => simp
    | cons p P ih =>
      obtain ⟨i1, i2⟩ := ih fun q hq => hP q (List.mem_cons_of_mem _ hq)
      have hind : (fun ω => if Falls p.1 (fun i => rnd i ω) 0 then G p.2 else 0) =
          Set.indicator {ω | Falls p.1 (fun i => rnd i ω) 0} fun _ => G p.2 := by
        funext ω
        simp [Set.indicator]
      have hi : Integrable (fun ω => if Falls p.1 (fun i => rnd i ω) 0 then G p.2 else 0) μ := by
        rw [hind]
        exact (integrable_const _).indicator (falls_measurable h _ _)
      simp only [List.map_cons, List.sum_cons]
      refine ⟨hi.add i1, ?_⟩
      rw [integral_add hi i1, i2, hind, integral_indicator (falls_measurable h _ _), setIntegral_const,
        falls_prob h (hP p List.mem_cons_self)]
      simp
  obtain ⟨k1, k2⟩ := key P hP
  refine ⟨k1.congr (Filter.EventuallyEq.symm hX), ?_⟩
  rw [integral_congr_ae hX, k2]

end Verif.Proofs
