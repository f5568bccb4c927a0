import Verif.Proofs.MeanAll
import Mathlib.MeasureTheory.Integral.Bochner.Set

/-! # Averages over independent draws are sums -/

namespace Verif.Proofs
open Verif Verif.Spec MeasureTheory ProbabilityTheory

variable {Ω : Type*} [MeasurableSpace Ω] {μ : Measure Ω} {E : Type*} [NormedAddCommGroup E] [NormedSpace ℝ E]

/-- a random variable with finitely many values -/
theorem integral_finite [CompleteSpace E] {α : Type*} [IsProbabilityMeasure μ] {X : Ω → α} {T : List (α × ℝ)} (hn : (T.map Prod.fst).Nodup)
    (hm : ∀ t ∈ T, MeasurableSet {ω | X ω = t.1}) (hw : ∀ t ∈ T, μ.real {ω | X ω = t.1} = t.2) (h1 : (T.map (·.2)).sum = 1) (f : α → E) :
    (∀ᵐ ω ∂μ, X ω ∈ T.map Prod.fst) ∧ Integrable (fun ω => f (X ω)) μ ∧ ∫ ω, f (X ω) ∂μ = mean T f := by
  classical
  set S := (T.map Prod.fst).toFinset with hS
  have hmem : ∀ x ∈ S, ∃ t ∈ T, t.1 = x := by
    intro x hx
    obtain ⟨t, ht, e⟩ := List.mem_map.1 (List.mem_toFinset.1 hx)
    exact ⟨t, ht, e⟩
  have hmS : ∀ x ∈ S, MeasurableSet {ω | X ω = x} := by
    intro x hx
    obtain ⟨t, ht, rfl⟩ := hmem x hx
    exact hm t ht
  have hsum : ∑ x ∈ S, μ.real {ω | X ω = x} = 1 := by
    rw [List.sum_toFinset _ hn, List.map_map, ← h1]
    exact congrArg List.sum (List.map_congr_left fun t ht => hw t ht)
  have hae : ∀ᵐ ω ∂μ, X ω ∈ S := by
    have hU : {ω | X ω ∈ S} = ⋃ x ∈ S, {ω | X ω = x} := by ext ω; simp
    have hms : MeasurableSet {ω | X ω ∈ S} := by rw [hU]; exact Finset.measurableSet_biUnion _ hmS
    have hr : μ.real {ω | X ω ∈ S} = 1 := by
      rw [hU, measureReal_biUnion_finset ?_ hmS, hsum]
      intro a _ b _ hab
      refine Set.disjoint_left.2 fun ω ha hb => hab ?_
      exact (show X ω = a from ha).symm.trans hb
    have hone : μ {ω | X ω ∈ S} = 1 := by
      rw [Measure.real, ENNReal.toReal_eq_one_iff] at hr
      exact hr
    rw [ae_iff]
    have := (prob_compl_eq_zero_iff hms).2 hone
    exact this
  have hae' : (fun ω => f (X ω)) =ᵐ[μ] fun ω => ∑ x ∈ S, Set.indicator {ω | X ω = x} (fun _ => f x) ω := by
    filter_upwards [hae] with ω hω
    rw [Finset.sum_eq_single (X ω)]
    · simp
    · intro b _ hb
      exact Set.indicator_of_notMem (fun h => hb (show X ω = b from h).symm) _
    · exact fun h => absurd hω h
  have hint : ∀ x ∈ S, Integrable (Set.indicator {ω | X ω = x} fun _ => f x) μ := fun x hx =>
    (integrable_const _).indicator (hmS x hx)
  refine ⟨?_, (integrable_finset_sum S hint).congr (by simpa using hae'.symm), ?_⟩
  · filter_upwards [hae] with ω hω
    exact List.mem_toFinset.1 hω
  · rw [integral_congr_ae hae', integral_finset_sum S hint]
    rw [Finset.sum_congr rfl fun x hx => integral_indicator_const (f x) (hmS x hx), List.sum_toFinset _ hn, List.map_map]
    unfold mean
    refine congrArg List.sum (List.map_congr_left fun t ht => ?_)
    show μ.real _ • f t.1 = _
    rw [hw t ht]

/-- all lists of drawLists with their probabilities -/
noncomputable def drawLists : List (List (ℕ × ℝ)) → List (List ℕ × ℝ)
  | [] => [([], 1)]
  | A :: As => A.flatMap fun a => (drawLists As).map fun r => (a.1 :: r.1, a.2 * r.2)

theorem mean_drawLists {E : Type*} [AddCommGroup E] [Module ℝ E] (As : List (List (ℕ × ℝ))) (f : List ℕ → E) : mean (drawLists As) f = meanAll As f := by
  induction As generalizing f with
  | nil => simp [drawLists, mean, meanAll]
  | cons A As ih =>
    rw [drawLists, mean_flatMap A (drawLists As) (· :: ·)]
    exact mean_congr fun a _ => ih _

theorem pathChances_eq (ls : List Line) : pathChances ls = drawLists (ls.map fun l => l.instr.chances) := by
  induction ls with
  | nil => rfl
  | cons l ls ih => rw [pathChances, ih]; rfl

theorem drawLists_total {As : List (List (ℕ × ℝ))} (h : ∀ A ∈ As, (A.map (·.2)).sum = 1) : ((drawLists As).map (·.2)).sum = 1 := by
  have h1 := mean_drawLists As fun _ => (1 : ℝ)
  rw [meanAll_const h, mean_const] at h1
  simpa using h1

theorem drawLists_nodup {As : List (List (ℕ × ℝ))} (h : ∀ A ∈ As, (A.map Prod.fst).Nodup) : ((drawLists As).map Prod.fst).Nodup := by
  induction As with
  | nil => simp [drawLists]
  | cons A As ih =>
    have hA := h A List.mem_cons_self
    have hr := ih fun A hA => h A (List.mem_cons_of_mem _ hA)
    rw [drawLists, List.map_flatMap]
    clear h ih
    induction A with
    | nil => simp
    | cons a A ihA =>
      rw [List.map_cons, List.nodup_cons] at hA
      rw [List.flatMap_cons, List.nodup_append]
      refine ⟨?_, ihA hA.2, ?_⟩
      · rw [List.map_map]
        have : (Prod.fst ∘ fun r : List ℕ × ℝ => (a.1 :: r.1, a.2 * r.2)) = (List.cons a.1) ∘ Prod.fst := rfl
        rw [this, ← List.map_map]
        exact hr.map (List.cons_injective)
      · intro x hx y hy e
        obtain ⟨r, hr, rfl⟩ := List.mem_map.1 hx
        obtain ⟨r', hr', rfl⟩ := List.mem_map.1 hr
        obtain ⟨b, hb, hy⟩ := List.mem_flatMap.1 hy
        obtain ⟨s, hs, rfl⟩ := List.mem_map.1 hy
        obtain ⟨s', hs', rfl⟩ := List.mem_map.1 hs
        simp only [List.cons.injEq] at e
        exact hA.1 (e.1 ▸ List.mem_map.2 ⟨b, hb, rfl⟩)

theorem drawLists_prob {As : List (List (ℕ × ℝ))} {P : ℕ → ℕ → ℝ} {pos : ℕ} (h : ∀ i (hi : i < As.length), ∀ a ∈ As[i], P (pos + i) a.1 = a.2)
    {t : List ℕ × ℝ} (ht : t ∈ drawLists As) : ∃ hl : t.1.length = As.length, t.2 = ∏ i : Fin As.length, P (pos + i) (t.1[i.1]'(by rw [hl]; exact i.2)) := by
  induction As generalizing t pos with
  | nil =>
    simp only [drawLists, List.mem_singleton] at ht
    subst ht
    exact ⟨rfl, by simp⟩
  | cons A As ih =>
    obtain ⟨a, ha, ht⟩ := List.mem_flatMap.1 ht
    obtain ⟨r, hr, rfl⟩ := List.mem_map.1 ht
    obtain ⟨hl, hp⟩ := ih (pos := pos + 1) (fun i hi a ha => by
      have := h (i + 1) (by simpa using hi) a (by simpa using ha)
      rw [← this]; congr 1; omega) hr
    refine ⟨by simp [hl], ?_⟩
    show a.2 * r.2 = _
    have h0 := h 0 (by simp) a (by simpa using ha)
    refine Eq.trans ?_ (Fin.prod_univ_succ (n := As.length) _).symm
    rw [hp]
    congr 1
    · simpa using h0.symm
    · refine Finset.prod_congr rfl fun i _ => ?_
      simp only [Fin.val_succ, List.getElem_cons_succ]
      congr 1
      omega

/-- the draws as a list -/
theorem integral_draws [CompleteSpace E] [IsProbabilityMeasure μ] {D : ℕ → Ω → ℕ} (hm : ∀ i, Measurable (D i)) (hi : iIndepFun D μ) {As : List (List (ℕ × ℝ))}
    (hn : ∀ A ∈ As, (A.map Prod.fst).Nodup) (hs : ∀ A ∈ As, (A.map (·.2)).sum = 1)
    (hlaw : ∀ i (hi : i < As.length), ∀ a ∈ As[i], μ.real {ω | D i ω = a.1} = a.2) (f : List ℕ → E) :
    (∀ᵐ ω ∂μ, (List.range As.length).map (fun i => D i ω) ∈ (drawLists As).map Prod.fst) ∧
    Integrable (fun ω => f ((List.range As.length).map fun i => D i ω)) μ ∧
    ∫ ω, f ((List.range As.length).map fun i => D i ω) ∂μ = meanAll As f := by
  have hset : ∀ t ∈ drawLists As, ∃ hl : t.1.length = As.length, {ω | (List.range As.length).map (fun i => D i ω) = t.1} =
      ⋂ i ∈ (Finset.univ : Finset (Fin As.length)), D i.1 ⁻¹' {t.1[i.1]'(by rw [hl]; exact i.2)} := by
    intro t ht
    obtain ⟨hl, -⟩ := drawLists_prob (P := fun i j => μ.real {ω | D i ω = j}) (pos := 0) (fun i hi a ha => by rw [Nat.zero_add]; exact hlaw i hi a ha) ht
    refine ⟨hl, ?_⟩
    ext ω
    simp only [Set.mem_ofPred_eq, Finset.mem_univ, Set.iInter_true, Set.mem_iInter, Set.mem_preimage, Set.mem_singleton_iff]
    constructor
    · rintro h i
      simp only [← h, List.getElem_map, List.getElem_range]
    · intro h
      refine List.ext_getElem (by simp [hl]) fun i h1 h2 => ?_
      simp only [List.getElem_map, List.getElem_range]
      exact h ⟨i, by simpa using h1⟩
  rw [← mean_drawLists]
  refine integral_finite (drawLists_nodup hn) (fun t ht => ?_) (fun t ht => ?_) (drawLists_total hs) f
  · obtain ⟨hl, e⟩ := hset t ht
    rw [e]
    exact Finset.measurableSet_biInter _ fun i _ => hm i.1 (measurableSet_singleton _)
  · obtain ⟨hl, e⟩ := hset t ht
    obtain ⟨_, hp⟩ := drawLists_prob (P := fun i j => μ.real {ω | D i ω = j}) (pos := 0) (fun i hi a ha => by rw [Nat.zero_add]; exact hlaw i hi a ha) ht
    have hi' : iIndepFun (fun i : Fin As.length => D i.1) μ := hi.precomp Fin.val_injective
    rw [e, Measure.real, hi'.measure_inter_preimage_eq_mul Finset.univ fun i _ => measurableSet_singleton _, ENNReal.toReal_prod, hp]
    refine Finset.prod_congr rfl fun i _ => ?_
    simp only [Nat.zero_add]
    rfl

end Verif.Proofs
