import Verif.Proofs.NoiseLaw
import Verif.Props.Average

/-! # C77: the statistics of noisy simulation

The draws of `std::discrete_distribution` are independent random variables `D i` on some probability space, each with the distribution
given by the weights it was constructed from. -/

namespace Verif.Props
open Verif Verif.Spec Verif.Model Verif.Proofs MeasureTheory ProbabilityTheory
attribute [-simp] BitVec.getLsbD_eq_getElem

variable {Ω : Type*} [MeasurableSpace Ω] {μ : Measure Ω} [IsProbabilityMeasure μ] {D : ℕ → Ω → ℕ}

theorem line_weights {ls : List Line} {C : Circuit} {n : Nat} (h : CircuitOf ls C n) (hm : NoMeasure ls) :
    ∀ l ∈ ls, WeightsOK l.instr.weights := by
  intro l hl
  obtain ⟨gs, hgs, -⟩ := buildCircuit_ok h.built
  obtain ⟨k, hk, rfl⟩ := List.mem_iff_getElem.1 hl
  obtain ⟨g, -, hg⟩ := (mapM_get _ hgs).2 k _ (List.getElem?_eq_getElem hk)
  exact weights_built hg (hm _ hl)

theorem draws_fit {ls : List Line} {shots : Nat} (hw : ∀ l ∈ ls, WeightsOK l.instr.weights) (hD : IndexDraws μ ls shots D) :
    ∀ᵐ ω ∂μ, DrawsFit ls shots fun i => D i ω := by
  have key : ∀ k (hk : k < ls.length) t, t < shots → ∀ᵐ ω ∂μ, ∃ w, ((ls[k]).instr.weights)[D (k * shots + t) ω]? = some w ∧ 0 < w := by
    intro k hk t ht
    obtain ⟨hw0, hw1⟩ := hw _ (List.getElem_mem hk)
    have h1 := (integral_finite (μ := μ) (X := D (k * shots + t)) (T := (ls[k]).instr.chances) (by rw [chances_fst]; exact List.nodup_range)
      (fun a _ => hD.meas _ (measurableSet_singleton a.1)) (hD.law k hk t ht) (chances_sum hw1.ne') (fun _ => (0 : ℝ))).1
    have h2 : ∀ j w, ((ls[k]).instr.weights)[j]? = some w → ¬ 0 < w → ∀ᵐ ω ∂μ, D (k * shots + t) ω ≠ j := by
      intro j w hj hn
      have hw : w = 0 := le_antisymm (not_lt.1 hn) (hw0 w (List.mem_of_getElem? hj))
      have := hD.law k hk t ht _ (chances_mem hj)
      rw [hw, zero_div] at this
      rw [ae_iff]
      simp only [ne_eq, not_not]
      exact (measureReal_eq_zero_iff).1 this
    have h2' : ∀ᵐ ω ∂μ, ∀ j, ∀ w, ((ls[k]).instr.weights)[j]? = some w → ¬ 0 < w → D (k * shots + t) ω ≠ j := by
      rw [ae_all_iff]
      intro j
      cases hj : ((ls[k]).instr.weights)[j]? with
      | none => exact Filter.Eventually.of_forall fun ω w h => by cases h
      | some w =>
        by_cases hn : 0 < w
        · exact Filter.Eventually.of_forall fun ω w' h hw' => absurd (by cases h; exact hn) hw'
        · filter_upwards [h2 j w hj hn] with ω hω w' _ _
          exact hω
    filter_upwards [h1, h2'] with ω ha hb
    rw [chances_fst, List.mem_range] at ha
    refine ⟨_, List.getElem?_eq_getElem ha, ?_⟩
    by_contra hc
    exact hb _ _ (List.getElem?_eq_getElem ha) hc rfl
  unfold DrawsFit
  rw [ae_all_iff]
  intro k
  by_cases hk : k < ls.length
  · have : ∀ᵐ ω ∂μ, ∀ t, t < shots → ∃ w, ((ls[k]).instr.weights)[D (k * shots + t) ω]? = some w ∧ 0 < w := by
      rw [ae_all_iff]
      intro t
      by_cases ht : t < shots
      · filter_upwards [key k hk t ht] with ω hω _
        exact hω
      · exact Filter.Eventually.of_forall fun ω h => absurd h ht
    filter_upwards [this] with ω hω _
    exact hω
  · exact Filter.Eventually.of_forall fun ω h => absurd h hk

/-- averages over the paths of the shots -/
theorem drawn_mean {E : Type*} [NormedAddCommGroup E] [NormedSpace ℝ E] [CompleteSpace E] {ls : List Line} {shots : Nat}
    {θ : String → Option ℝ} (hw : ∀ l ∈ ls, WeightsOK l.instr.weights)
    (hlen : ∀ l ∈ ls, l.instr.weights.length = (l.instr.alternatives θ).length) (hD : IndexDraws μ ls shots D)
    {F : List (List ℕ) → E} (hF : ∀ l l', l.Perm l' → F l = F l') :
    Integrable (fun ω => F (drawnPaths ls θ shots fun i => D i ω)) μ ∧
    ∫ ω, F (drawnPaths ls θ shots fun i => D i ω) ∂μ = shotsMean ls shots F := by
  set As := (ls.map fun l => l.instr.chances).flatMap (List.replicate shots) with hAs
  have hN : As.length = ls.length * shots := by simp [hAs, List.length_flatMap, Function.comp_def]
  have hmem : ∀ A ∈ As, ∃ l ∈ ls, A = l.instr.chances := by
    intro A hA
    obtain ⟨B, hB, hA⟩ := List.mem_flatMap.1 hA
    obtain ⟨l, hl, rfl⟩ := List.mem_map.1 hB
    exact ⟨l, hl, (List.mem_replicate.1 hA).2⟩
  have hdr := integral_draws (μ := μ) (As := As) hD.meas hD.indep
    (fun A hA => by obtain ⟨l, -, rfl⟩ := hmem A hA; rw [chances_fst]; exact List.nodup_range)
    (fun A hA => by obtain ⟨l, hl, rfl⟩ := hmem A hA; exact chances_sum (hw l hl).2.ne')
    (fun i hi a ha => by
      obtain ⟨hk, e⟩ := block_get i hi
      have hk' : i / shots < ls.length := by simpa using hk
      have h0 : 0 < shots := by
        rcases Nat.eq_zero_or_pos shots with rfl | h0
        · rw [hN] at hi; simp at hi
        · exact h0
      rw [e, List.getElem_map] at ha
      have := hD.law (i / shots) hk' (i % shots) (Nat.mod_lt _ h0) a ha
      rwa [Nat.div_add_mod'] at this)
    (fun d => F ((pathsFrom shots (seqOf d) (ls.map fun l => (l.instr.alternatives θ).length) 0 [[]] (List.replicate shots [])).2))
  obtain ⟨-, hint, hval⟩ := hdr
  have hlay : Layered shots (ls.map fun l => l.instr.chances) (List.replicate shots []) fun d =>
      (pathsFrom shots (seqOf d) (ls.map fun l => (l.instr.alternatives θ).length) 0 [[]] (List.replicate shots [])).2 := by
    have hA : List.Forall₂ (fun (A : List (ℕ × ℝ)) K => ∀ j, j ∈ A.map Prod.fst → j < K) (ls.map fun l => l.instr.chances)
        (ls.map fun l => (l.instr.alternatives θ).length) := by
      rw [List.forall₂_map_left_iff, List.forall₂_map_right_iff, List.forall₂_same]
      intro l hl j hj
      rw [chances_fst, List.mem_range, hlen l hl] at hj
      exact hj
    exact layered_paths hA [] (by simp) (by
      intro p hp
      rw [(List.mem_replicate.1 hp).2]
      simp) (by simp)
  have hmean := layered_mean (by simp) hlay hF
  have hzip : ∀ e : List (List ℕ), e.length = shots → List.zipWith (· ++ ·) (List.replicate shots []) e = e := by
    intro e he
    rw [zipWith_replicate_left _ _ _ he]
    simp
  have hshots : shotsMean ls shots (fun e => F (List.zipWith (· ++ ·) (List.replicate shots []) e)) = shotsMean ls shots F :=
    meanAll_congr fun r hr => by rw [hzip r (forall₂_replicate hr).1]
  rw [hshots] at hmean
  have hae : (fun ω => F (drawnPaths ls θ shots fun i => D i ω)) =ᵐ[μ] fun ω =>
      F ((pathsFrom shots (seqOf ((List.range As.length).map fun i => D i ω)) (ls.map fun l => (l.instr.alternatives θ).length) 0 [[]]
        (List.replicate shots [])).2) := by
    filter_upwards [draws_fit hw hD] with ω hω
    unfold drawnPaths
    rw [pathsFrom_congr (draws' := seqOf ((List.range As.length).map fun i => D i ω))]
    · intro t ht
      have ht : t < As.length := by rw [hN]; simpa using ht
      simp [seqOf, ht]
    · simp
    · intro p hp
      rw [(List.mem_replicate.1 hp).2]
      simp
    · simp
    · intro k hk t ht
      have := draws_lt hω hlen k (by simpa using hk) t ht
      simpa using this
  exact ⟨hint.congr hae.symm, by rw [integral_congr_ae hae, hval]; exact hmean⟩

section
variable {ls : List Line} {C : Circuit} {L n shots : Nat} {θ : String → Option ℝ} {ψ : U64 → ℂ}

/-- **C77 (a result is returned).** For almost all draws `simulate_noise` returns a list, and it returns nothing else than lists. -/
theorem C77_returns (h : CircuitOf ls C n) (hL : LanesOK L) (hn : n < 64) (hk : KeysGiven ls θ) (hm : NoMeasure ls)
    (hsize : shots * 2 ^ n ≤ 2 ^ 64) (hs : shots < 2 ^ 63) (hD : IndexDraws μ ls shots D) (ψ : U64 → ℂ) :
    (∃ res : Ω → List ((U64 → ℂ) × Int), ∀ᵐ ω ∂μ, C.SimulatesNoise L n (fun i => D i ω) θ ψ shots (.ok (res ω))) ∧
    ∀ᵐ ω ∂μ, ∀ out, C.SimulatesNoise L n (fun i => D i ω) θ ψ shots out → ∃ res, out = .ok res := by
  have hfit := draws_fit (line_weights h hm) hD
  refine ⟨?_, ?_⟩
  · have hex : ∀ ω, ∃ res : List ((U64 → ℂ) × Int), DrawsFit ls shots (fun i => D i ω) →
        C.SimulatesNoise L n (fun i => D i ω) θ ψ shots (.ok res) := by
      intro ω
      by_cases hω : DrawsFit ls shots fun i => D i ω
      · obtain ⟨⟨out, h1⟩, h2⟩ := noise_drawn h hL hn hk hm hsize hs hω ψ
        obtain ⟨res, rfl, -⟩ := h2 out h1
        exact ⟨res, fun _ => h1⟩
      · exact ⟨[], fun h => absurd h hω⟩
    choose res hres using hex
    exact ⟨res, by filter_upwards [hfit] with ω hω using hres ω hω⟩
  · filter_upwards [hfit] with ω hω out hout
    obtain ⟨res, h1, -⟩ := (noise_drawn h hL hn hk hm hsize hs hω ψ).2 out hout
    exact ⟨res, h1⟩

/-- **C77 (joint distribution).** The states of the shots are distributed like those of `shots` independent shots, each of which chooses
at every line one alternative with its probability: the average of every function of the shots that does not depend on their order is the
average over independent shots.  Conditions are ignored. -/
theorem C77_shots {E : Type*} [NormedAddCommGroup E] [NormedSpace ℝ E] [CompleteSpace E] (h : CircuitOf ls C n) (hL : LanesOK L) (hn : n < 64) (hk : KeysGiven ls θ) (hm : NoMeasure ls)
    (hsize : shots * 2 ^ n ≤ 2 ^ 64) (hs : shots < 2 ^ 63) (hD : IndexDraws μ ls shots D) {res : Ω → List ((U64 → ℂ) × Int)}
    (hres : ∀ᵐ ω ∂μ, C.SimulatesNoise L n (fun i => D i ω) θ ψ shots (.ok (res ω))) {F : List (U64 → ℂ) → E}
    (hF : ∀ l l', l.Perm l' → F l = F l') :
    Integrable (fun ω => F (shotStates (res ω))) μ ∧
    ∫ ω, F (shotStates (res ω)) ∂μ = shotsMean ls shots fun ps => F (ps.map fun p => pathState n θ ls p (restrict n ψ)) := by
  have hw := line_weights h hm
  have hlen : ∀ l ∈ ls, l.instr.weights.length = (l.instr.alternatives θ).length := by
    obtain ⟨gs, hgs, -⟩ := buildCircuit_ok h.built
    exact (offers_all hgs h.args hn h.qubits hk hm).2
  obtain ⟨h1, h2⟩ := drawn_mean (θ := θ) hw hlen hD (F := fun ps => F (ps.map fun p => pathState n θ ls p (restrict n ψ)))
    fun l l' hp => hF _ _ (hp.map _)
  have hae : (fun ω => F (shotStates (res ω))) =ᵐ[μ] fun ω =>
      F ((drawnPaths ls θ shots fun i => D i ω).map fun p => pathState n θ ls p (restrict n ψ)) := by
    filter_upwards [hres, draws_fit hw hD] with ω hω hfit
    obtain ⟨r, e, -, -, hr⟩ := (noise_drawn h hL hn hk hm hsize hs hfit ψ).2 _ hω
    obtain rfl : res ω = r := by simpa using e
    exact hF _ _ (reports_states hr).1
  exact ⟨h1.congr hae.symm, by rw [integral_congr_ae hae, h2]⟩

theorem results_nonneg (h : CircuitOf ls C n) (hL : LanesOK L) (hn : n < 64) (hk : KeysGiven ls θ) (hm : NoMeasure ls)
    (hsize : shots * 2 ^ n ≤ 2 ^ 64) (hs : shots < 2 ^ 63) (hD : IndexDraws μ ls shots D) {res : Ω → List ((U64 → ℂ) × Int)}
    (hres : ∀ᵐ ω ∂μ, C.SimulatesNoise L n (fun i => D i ω) θ ψ shots (.ok (res ω))) : ∀ᵐ ω ∂μ, ∀ r ∈ res ω, 0 ≤ r.2 := by
  filter_upwards [hres, draws_fit (line_weights h hm) hD] with ω hω hfit
  obtain ⟨r, e, -, -, hr⟩ := (noise_drawn h hL hn hk hm hsize hs hfit ψ).2 _ hω
  obtain rfl : res ω = r := by simpa using e
  exact (reports_states hr).2

theorem path_total (hw : ∀ l ∈ ls, WeightsOK l.instr.weights) : ((pathChances ls).map (·.2)).sum = 1 := by
  rw [pathChances_eq]
  refine drawLists_total fun A hA => ?_
  obtain ⟨l, hl, rfl⟩ := List.mem_map.1 hA
  exact chances_sum (hw l hl).2.ne'

/-- **C77 (mean).** The sum over the result of any quantity of the states, weighted with the counts, is on average `shots` times the mean
of the quantity over all paths. -/
theorem C77_mean {E : Type*} [NormedAddCommGroup E] [NormedSpace ℝ E] [CompleteSpace E] (h : CircuitOf ls C n) (hL : LanesOK L) (hn : n < 64) (hk : KeysGiven ls θ) (hm : NoMeasure ls)
    (hsize : shots * 2 ^ n ≤ 2 ^ 64) (hs : shots < 2 ^ 63) (hD : IndexDraws μ ls shots D) {res : Ω → List ((U64 → ℂ) × Int)}
    (hres : ∀ᵐ ω ∂μ, C.SimulatesNoise L n (fun i => D i ω) θ ψ shots (.ok (res ω))) (g : (U64 → ℂ) → E) :
    Integrable (fun ω => ((res ω).map fun r => (r.2 : ℝ) • g r.1).sum) μ ∧
    ∫ ω, ((res ω).map fun r => (r.2 : ℝ) • g r.1).sum ∂μ =
      (shots : ℝ) • mean (pathChances ls) fun p => g (pathState n θ ls p (restrict n ψ)) := by
  obtain ⟨h1, h2⟩ := C77_shots h hL hn hk hm hsize hs hD hres (F := fun l => (l.map g).sum) fun l l' hp => (hp.map g).sum_eq
  have hae : (fun ω => ((res ω).map fun r => (r.2 : ℝ) • g r.1).sum) =ᵐ[μ] fun ω => ((shotStates (res ω)).map g).sum := by
    filter_upwards [results_nonneg h hL hn hk hm hsize hs hD hres] with ω hω
    exact (shotStates_sum hω g).symm
  refine ⟨h1.congr hae.symm, ?_⟩
  rw [integral_congr_ae hae, h2]
  have := meanAll_sum shots (path_total (line_weights h hm)) fun p => g (pathState n θ ls p (restrict n ψ))
  unfold shotsMean
  simp only [List.map_map]
  exact this

/-- **C77 (accuracy).** The mean of a quantity over the shots has exactly the variance of the quantity over the paths, divided by the
number of shots. -/
theorem C77_variance (h : CircuitOf ls C n) (hL : LanesOK L) (hn : n < 64) (hk : KeysGiven ls θ) (hm : NoMeasure ls)
    (hsize : shots * 2 ^ n ≤ 2 ^ 64) (hs : shots < 2 ^ 63) (h0 : 0 < shots) (hD : IndexDraws μ ls shots D) {res : Ω → List ((U64 → ℂ) × Int)}
    (hres : ∀ᵐ ω ∂μ, C.SimulatesNoise L n (fun i => D i ω) θ ψ shots (.ok (res ω))) (g : (U64 → ℂ) → ℝ) {m : ℝ}
    (hmean : m = mean (pathChances ls) fun p => g (pathState n θ ls p (restrict n ψ))) :
    Integrable (fun ω => (((res ω).map fun r => r.2 * g r.1).sum / shots - m) ^ 2) μ ∧
    ∫ ω, (((res ω).map fun r => r.2 * g r.1).sum / shots - m) ^ 2 ∂μ =
      mean (pathChances ls) (fun p => (g (pathState n θ ls p (restrict n ψ)) - m) ^ 2) / shots := by
  have hs0 : (shots : ℝ) ≠ 0 := by exact_mod_cast h0.ne'
  have htot := path_total (line_weights h hm)
  obtain ⟨h1, h2⟩ := C77_shots h hL hn hk hm hsize hs hD hres (F := fun l => (l.map fun φ => g φ - m).sum ^ 2)
    fun l l' hp => by rw [(hp.map fun φ => g φ - m).sum_eq]
  have hlen : ∀ᵐ ω ∂μ, (shotStates (res ω)).length = shots := by
    filter_upwards [hres, draws_fit (line_weights h hm) hD] with ω hω hfit
    obtain ⟨r, e, hl, -, hr⟩ := (noise_drawn h hL hn hk hm hsize hs hfit ψ).2 _ hω
    obtain rfl : res ω = r := by simpa using e
    rw [(reports_states hr).1.length_eq, List.length_map, hl]
  have hae : (fun ω => (((res ω).map fun r => r.2 * g r.1).sum / shots - m) ^ 2) =ᵐ[μ] fun ω =>
      ((shotStates (res ω)).map fun φ => g φ - m).sum ^ 2 * (1 / (shots : ℝ) ^ 2) := by
    filter_upwards [results_nonneg h hL hn hk hm hsize hs hD hres, hlen] with ω hω hl
    have e1 : ((res ω).map fun r => r.2 * g r.1).sum = ((shotStates (res ω)).map g).sum := (shotStates_sum hω g).symm
    have e2 : ∀ l : List (U64 → ℂ), (l.map fun φ => g φ - m).sum = (l.map g).sum - l.length * m := by
      intro l
      induction l with
      | nil => simp
      | cons a l ih => simp only [List.map_cons, List.sum_cons, ih, List.length_cons]; push_cast; ring
    rw [e1, e2, hl]
    field_simp
  refine ⟨(h1.mul_const _).congr hae.symm, ?_⟩
  rw [integral_congr_ae hae, integral_mul_const, h2]
  have hz : mean (pathChances ls) (fun p => g (pathState n θ ls p (restrict n ψ)) - m) = 0 := by
    have e := mean_add (pathChances ls) (fun p => g (pathState n θ ls p (restrict n ψ))) fun _ => -m
    simp only [← sub_eq_add_neg] at e
    rw [e, ← hmean, mean_const, htot]
    simp
  have := meanAll_sq shots htot hz
  unfold shotsMean
  simp only [List.map_map]
  rw [show (meanAll (List.replicate shots (pathChances ls)) fun ps => (ps.map ((fun φ => g φ - m) ∘ fun p => pathState n θ ls p (restrict n ψ))).sum ^ 2) = _ from this]
  field_simp

/-- **C77 (deviations).** Large deviations of the mean over the shots are rare. -/
theorem C77_deviation (h : CircuitOf ls C n) (hL : LanesOK L) (hn : n < 64) (hk : KeysGiven ls θ) (hm : NoMeasure ls)
    (hsize : shots * 2 ^ n ≤ 2 ^ 64) (hs : shots < 2 ^ 63) (h0 : 0 < shots) (hD : IndexDraws μ ls shots D) {res : Ω → List ((U64 → ℂ) × Int)}
    (hres : ∀ᵐ ω ∂μ, C.SimulatesNoise L n (fun i => D i ω) θ ψ shots (.ok (res ω))) (g : (U64 → ℂ) → ℝ) {m : ℝ}
    (hmean : m = mean (pathChances ls) fun p => g (pathState n θ ls p (restrict n ψ))) {ε : ℝ} (hε : 0 < ε) :
    μ.real {ω | ε ≤ |((res ω).map fun r => r.2 * g r.1).sum / shots - m|} ≤
      mean (pathChances ls) (fun p => (g (pathState n θ ls p (restrict n ψ)) - m) ^ 2) / (shots * ε ^ 2) := by
  obtain ⟨h1, h2⟩ := C77_variance h hL hn hk hm hsize hs h0 hD hres g hmean
  have := mul_meas_ge_le_integral_of_nonneg (Filter.Eventually.of_forall fun ω => sq_nonneg _) h1 (ε ^ 2)
  rw [h2] at this
  have hset : {ω | ε ≤ |((res ω).map fun r => r.2 * g r.1).sum / shots - m|} =
      {ω | ε ^ 2 ≤ (((res ω).map fun r => r.2 * g r.1).sum / shots - m) ^ 2} := by
    ext ω
    simp only [Set.mem_ofPred_eq]
    rw [← sq_abs (((res ω).map fun r => r.2 * g r.1).sum / shots - m), sq_le_sq₀ hε.le (abs_nonneg _)]
  rw [hset]
  have hs0 : (0 : ℝ) < shots := by exact_mod_cast h0
  rw [le_div_iff₀ (by positivity)]
  rw [le_div_iff₀ hs0] at this
  linarith

/-- **C77 (counts).** The number of shots that end in a state with a given property has a binomial distribution. -/
theorem C77_binomial (h : CircuitOf ls C n) (hL : LanesOK L) (hn : n < 64) (hk : KeysGiven ls θ) (hm : NoMeasure ls)
    (hsize : shots * 2 ^ n ≤ 2 ^ 64) (hs : shots < 2 ^ 63) (hD : IndexDraws μ ls shots D) {res : Ω → List ((U64 → ℂ) × Int)}
    (hres : ∀ᵐ ω ∂μ, C.SimulatesNoise L n (fun i => D i ω) θ ψ shots (.ok (res ω))) (S : (U64 → ℂ) → Bool) {q : ℝ}
    (hq : q = mean (pathChances ls) fun p => if S (pathState n θ ls p (restrict n ψ)) then (1 : ℝ) else 0) (c : Nat) :
    μ.real {ω | (((res ω).filter fun r => S r.1).map (·.2)).sum = c} = shots.choose c * q ^ c * (1 - q) ^ (shots - c) := by
  obtain ⟨h1, h2⟩ := C77_shots h hL hn hk hm hsize hs hD hres (F := fun l => if l.countP S = c then (1 : ℝ) else 0)
    fun l l' hp => by rw [hp.countP_eq]
  have hcount : ∀ {l : List ((U64 → ℂ) × Int)}, (∀ r ∈ l, 0 ≤ r.2) → ((l.filter fun r => S r.1).map (·.2)).sum = ((shotStates l).countP S : Int) := by
    intro l hl
    induction l with
    | nil => rfl
    | cons r l ih =>
      have ih := ih fun r hr => hl r (List.mem_cons_of_mem _ hr)
      have hr := hl r List.mem_cons_self
      have e : shotStates (r :: l) = List.replicate r.2.toNat r.1 ++ shotStates l := List.flatMap_cons
      rw [e, List.countP_append, List.countP_replicate]
      by_cases hS : S r.1
      · rw [List.filter_cons_of_pos (by simpa using hS), List.map_cons, List.sum_cons, ih, if_pos hS]
        push_cast
        rw [Int.toNat_of_nonneg hr]
      · rw [List.filter_cons_of_neg (by simpa using hS), ih, if_neg hS]
        simp
  have hset : {ω | (((res ω).filter fun r => S r.1).map (·.2)).sum = c} =ᵐ[μ] {ω | (shotStates (res ω)).countP S = c} := by
    filter_upwards [results_nonneg h hL hn hk hm hsize hs hD hres] with ω hω
    refine propext (?_ : (((res ω).filter fun r => S r.1).map (·.2)).sum = (c : Int) ↔ (shotStates (res ω)).countP S = c)
    rw [hcount hω]
    exact Int.natCast_inj
  rw [measureReal_congr hset]
  have hnull : NullMeasurableSet {ω | (shotStates (res ω)).countP S = c} μ := by
    have := h1.aemeasurable.nullMeasurable (measurableSet_singleton (1 : ℝ))
    convert this using 1
    ext ω
    simp only [Set.mem_ofPred_eq, Set.mem_preimage, Set.mem_singleton_iff]
    split <;> simp_all
  have hind : (fun ω => if (shotStates (res ω)).countP S = c then (1 : ℝ) else 0) = Set.indicator {ω | (shotStates (res ω)).countP S = c} fun _ => 1 := by
    funext ω
    simp only [Set.indicator, Set.mem_ofPred_eq]
  have h3 : μ.real {ω | (shotStates (res ω)).countP S = c} = ∫ ω, (if (shotStates (res ω)).countP S = c then (1 : ℝ) else 0) ∂μ := by
    rw [hind, integral_indicator₀ hnull]
    simp
  rw [h3, h2]
  have := meanAll_count shots (path_total (line_weights h hm)) (fun p => S (pathState n θ ls p (restrict n ψ))) hq c
  unfold shotsMean
  simp only [List.countP_map]
  exact this

/-- the mean over the paths of a quantity that depends on the state like a density matrix is its sum over the branches of the circuit without
its conditions -/
theorem path_branches (hn : n < 64) (hl : ∀ l ∈ ls, LineOK n θ 0 l.always) (hm : NoMeasure ls) {D : Branch → ℂ} (hD : Quadratic n D) (φ : U64 → ℂ) :
    mean (pathChances ls) (fun p => D ⟨pathState n θ ls p φ, []⟩) = ((branches n θ (ls.map Line.always) ⟨φ, []⟩).map D).sum := by
  induction ls generalizing φ with
  | nil => simp [pathChances, mean, pathState, branches]
  | cons l ls ih =>
    have hl0 := hl l List.mem_cons_self
    have hmeas : NotMeasure l.instr := hm l List.mem_cons_self
    obtain ⟨g, hg⟩ := hl0.built
    obtain ⟨-, hw, hlen⟩ := alt_facts hg hl0.ok (n := n) hl0.unitary hl0.keys hmeas
    have hw : ∀ p ∈ l.instr.weights, 0 ≤ p := hw
    have hlen : l.instr.weights.length = (l.instr.alternatives θ).length := hlen
    have hsum : l.instr.weights.sum = 1 := fair_weights hl0.fair hmeas
    have hrest : ∀ x ∈ ls.map Line.always, LineOK n θ 0 x := by
      intro x hx
      obtain ⟨y, hy, rfl⟩ := List.mem_map.1 hx
      exact hl y (List.mem_cons_of_mem _ hy)
    have hq := quadratic_branches hn hrest hD
    rw [pathChances, mean_flatMap l.instr.chances (pathChances ls) (· :: ·)]
    rw [List.map_cons, branches, sum_flatMap, show l.always.split n θ ⟨φ, []⟩ = l.instr.split n θ ⟨φ, []⟩ from rfl, split_instr hmeas, List.map_map]
    unfold mean
    congr 1
    refine List.ext_getElem (by simp [Instr.chances, hlen]) fun k hk1 hk2 => ?_
    have hk : k < l.instr.weights.length := by simpa [Instr.chances] using hk1
    have hka : k < (l.instr.alternatives θ).length := by omega
    simp only [List.getElem_map, List.getElem_zip, Function.comp_apply, Instr.chances, List.getElem_zipIdx, Nat.zero_add, hsum, div_one]
    have e1 := ih (fun x hx => hl x (List.mem_cons_of_mem _ hx)) (fun x hx => hm x (List.mem_cons_of_mem _ hx))
      (onState (2 ^ n) (operatorOf (l.instr.alternatives θ)[k]) φ)
    have e2 := hq (Real.sqrt l.instr.weights[k] : ℂ) (fun j => (Real.sqrt l.instr.weights[k] : ℂ) *
        onState (2 ^ n) (operatorOf (l.instr.alternatives θ)[k]) φ j) (onState (2 ^ n) (operatorOf (l.instr.alternatives θ)[k]) φ) [] (fun j _ => rfl)
    dsimp only at e2
    rw [Complex.normSq_ofReal, Real.mul_self_sqrt (hw _ (List.getElem_mem hk))] at e2
    rw [e2, ← e1, Complex.real_smul]
    congr 1
    unfold mean
    congr 1
    refine List.map_congr_left fun p _ => ?_
    congr 2
    simp only [pathState, List.getElem?_eq_getElem hka]

/-- **C77 (density matrix).** If the gates are unitary and the probabilities of every random choice add up to 1, the density matrix of the
result is on average `shots` times the density matrix of the circuit without its conditions (the one of `C74_density`). -/
theorem C77_density (h : CircuitOf ls C n) (hL : LanesOK L) (hn : n < 64) (hk : KeysGiven ls θ) (hm : NoMeasure ls)
    (hsize : shots * 2 ^ n ≤ 2 ^ 64) (hs : shots < 2 ^ 63) (hD : IndexDraws μ ls shots D) {res : Ω → List ((U64 → ℂ) × Int)}
    (hres : ∀ᵐ ω ∂μ, C.SimulatesNoise L n (fun i => D i ω) θ ψ shots (.ok (res ω)))
    (hu : ∀ l ∈ ls, Unitaries l.instr) (hf : ∀ l ∈ ls, l.instr.Fair) {i j : U64} (hi : i.toNat < 2 ^ n) (hj : j.toNat < 2 ^ n) :
    ∫ ω, ((res ω).map fun r => (r.2 : ℂ) * (r.1 i * (starRingEnd ℂ) (r.1 j))).sum ∂μ =
      shots * density (branches n θ (ls.map Line.always) ⟨ψ, []⟩) [] i j := by
  have hl : ∀ l ∈ ls, LineOK n θ 0 l.always := by
    intro l hl
    obtain ⟨gs, hgs, -⟩ := buildCircuit_ok h.built
    obtain ⟨k, hk', rfl⟩ := List.mem_iff_getElem.1 hl
    obtain ⟨g, -, hg⟩ := (mapM_get _ hgs).2 k _ (List.getElem?_eq_getElem hk')
    exact ⟨⟨g, hg⟩, h.args ls[k] hl, h.qubits ls[k] hl, hu ls[k] hl, hk ls[k] hl, ⟨fun q c r e => absurd e (hm _ hl q c r), fun f e => by cases e⟩,
      hf ls[k] hl⟩
  have hl' : ∀ x ∈ ls.map Line.always, LineOK n θ 0 x := by
    intro x hx
    obtain ⟨y, hy, rfl⟩ := List.mem_map.1 hx
    exact hl y hy
  have h1 := (C77_mean h hL hn hk hm hsize hs hD hres fun φ => φ i * (starRingEnd ℂ) (φ j)).2
  have hquad := quadratic_density hi hj []
  have h2 := path_branches hn hl hm hquad (restrict n ψ)
  simp only [if_true] at h2
  rw [h2] at h1
  have h3 := quadratic_branches hn hl' hquad 1 (restrict n ψ) ψ [] (fun j hj => by simp [restrict, hj])
  dsimp only at h3
  rw [h3] at h1
  simp only [Complex.real_smul, map_one, Complex.ofReal_one, one_mul, Complex.ofReal_intCast, Complex.ofReal_natCast] at h1
  exact h1

end

/-! ## examples -/

/-- the distribution of an index with given weights -/
noncomputable def weightLaw (w : List ℝ) : Measure ℕ := ∑ j : Fin w.length, ENNReal.ofReal (w[j.1] / w.sum) • Measure.dirac j.1

theorem weightLaw_prob {w : List ℝ} (h : WeightsOK w) : IsProbabilityMeasure (weightLaw w) := by
  obtain ⟨h0, h1⟩ := h
  refine ⟨?_⟩
  unfold weightLaw
  rw [Measure.finsetSum_apply]
  simp only [Measure.smul_apply, measure_univ, smul_eq_mul, mul_one]
  have e := ENNReal.ofReal_sum_of_nonneg (s := Finset.univ) (f := fun j : Fin w.length => w[j.1] / w.sum)
    fun j _ => div_nonneg (h0 _ (List.getElem_mem _)) h1.le
  rw [← e, ← Finset.sum_div, Fin.sum_univ_getElem, div_self h1.ne', ENNReal.ofReal_one]

theorem weightLaw_at {w : List ℝ} (h : WeightsOK w) {j : Nat} (hj : j < w.length) : (weightLaw w).real {j} = w[j] / w.sum := by
  obtain ⟨h0, h1⟩ := h
  have e : ∑ i : Fin w.length, (ENNReal.ofReal (w[i.1] / w.sum) • Measure.dirac i.1) {j} = ENNReal.ofReal (w[j] / w.sum) := by
    rw [Finset.sum_eq_single (⟨j, hj⟩ : Fin w.length)]
    · rw [Measure.smul_apply, Measure.dirac_apply_of_mem (by simp), smul_eq_mul, mul_one]
    · intro b _ hb
      rw [Measure.smul_apply, Measure.dirac_apply' _ (measurableSet_singleton _)]
      have : b.1 ≠ j := fun e => hb (Fin.ext e)
      simp [this]
    · exact fun h => absurd (Finset.mem_univ _) h
  unfold weightLaw
  rw [Measure.real, Measure.finsetSum_apply, e, ENNReal.toReal_ofReal (div_nonneg (h0 _ (List.getElem_mem _)) h1.le)]

/-- independent draws with the distributions of the lines exist -/
theorem indexDraws_exist {ls : List Line} (hw : ∀ l ∈ ls, WeightsOK l.instr.weights) (shots : Nat) :
    ∃ μ : Measure (ℕ → ℕ), IsProbabilityMeasure μ ∧ IndexDraws μ ls shots fun i ω => ω i := by
  let ν : ℕ → Measure ℕ := fun i => if hk : i / shots < ls.length then weightLaw (ls[i / shots]).instr.weights else Measure.dirac 0
  have hν : ∀ i, IsProbabilityMeasure (ν i) := by
    intro i
    dsimp only [ν]
    split
    · rename_i hk
      exact weightLaw_prob (hw _ (List.getElem_mem hk))
    · infer_instance
  refine ⟨Measure.infinitePi ν, inferInstance, fun i => measurable_pi_apply i, iIndepFun_infinitePi (X := fun _ x => x) fun _ => measurable_id, ?_⟩
  intro k hk t ht a ha
  have hk' : (k * shots + t) / shots = k := by
    rw [Nat.add_comm, Nat.add_mul_div_right _ _ (by omega), Nat.div_eq_of_lt ht, Nat.zero_add]
  have hmap := Measure.infinitePi_map_eval ν (k * shots + t)
  have hset : (Measure.infinitePi ν).real {ω : ℕ → ℕ | ω (k * shots + t) = a.1} = (ν (k * shots + t)).real {a.1} := by
    rw [← hmap, map_measureReal_apply (measurable_pi_apply _) (measurableSet_singleton _)]
    rfl
  rw [hset]
  obtain ⟨⟨w, j⟩, hwj, rfl⟩ := List.mem_map.1 ha
  rw [List.mem_zipIdx_iff_getElem?] at hwj
  obtain ⟨hj, hwj⟩ := List.getElem?_eq_some_iff.1 hwj
  dsimp only [ν]
  simp only [hk']
  rw [dif_pos hk, weightLaw_at (hw _ (List.getElem_mem hk)) hj]
  exact congrArg (· / _) hwj

theorem noisyLines_plain : NoMeasure noisyLines := by
  intro l hl q c r
  simp only [noisyLines, List.mem_cons, List.not_mem_nil, or_false] at hl
  rcases hl with rfl | rfl | rfl <;> simp

/-- the hypotheses hold for the sample circuit with 1000 shots -/
example : ∃ (C : Circuit) (μ : Measure (ℕ → ℕ)), IsProbabilityMeasure μ ∧ CircuitOf noisyLines C 1 ∧ KeysGiven noisyLines (fun _ => some (0 : ℝ)) ∧
    NoMeasure noisyLines ∧ IndexDraws μ noisyLines 1000 (fun i ω => ω i) ∧ (∀ l ∈ noisyLines, Unitaries l.instr) ∧ (∀ l ∈ noisyLines, l.instr.Fair) ∧
    ∃ res : (ℕ → ℕ) → List ((U64 → ℂ) × Int), ∀ᵐ ω ∂μ, C.SimulatesNoise 4 1 (fun i => ω i) (fun _ => some 0) (fun j => if j = 0 then 1 else 0) 1000 (.ok (res ω)) := by
  obtain ⟨C, hC⟩ := noisyLines_of
  obtain ⟨μ, hμ, hD⟩ := indexDraws_exist (line_weights hC noisyLines_plain) 1000
  have hk : KeysGiven noisyLines (fun _ => some (0 : ℝ)) := fun l _ k _ => ⟨0, rfl⟩
  refine ⟨C, μ, hμ, hC, hk, noisyLines_plain, hD, ?_, ?_, ?_⟩
  · intro l hl
    simp only [noisyLines, List.mem_cons, List.not_mem_nil, or_false] at hl
    rcases hl with rfl | rfl | rfl <;> simp [Unitaries, UnitaryDesc, RotDesc.at]
  · intro l hl
    simp only [noisyLines, List.mem_cons, List.not_mem_nil, or_false] at hl
    rcases hl with rfl | rfl | rfl <;> simp [Instr.Fair]
    norm_num
  · exact (C77_returns hC (L := 4) (.inr ⟨2, by norm_num, by norm_num⟩) (by norm_num) hk noisyLines_plain (by norm_num) (by norm_num) hD _).1

/-- the bit flip of the sample circuit happens in `c` of 1000 shots with the binomial probability for 1/4 -/
example : mean (pathChances noisyLines) (fun p => if p = [0, 0, 0] then (1 : ℝ) else 0) = 1 / 4 := by
  simp [noisyLines, pathChances, Instr.chances, Instr.weights, mean, List.zipIdx]
  norm_num

end Verif.Props
