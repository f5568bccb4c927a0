import Verif.Proofs.HaarMeasure
import Verif.Proofs.FloatCircuit
import Verif.Model.Haar

/-! # What the Haar random setters leave -/

namespace Verif.Proofs
open Verif Verif.Spec Verif.Model MeasureTheory ProbabilityTheory
attribute [-simp] BitVec.getLsbD_eq_getElem

theorem amplitudes_eq (n : Nat) (ψ : U64 → ℂ) : amplitudes n ψ = vec n ψ := rfl

theorem vec_haarItem {n : Nat} (hn : n ≤ 63) (g : Nat → Bool → ℝ) (ψ : U64 → ℂ) :
    vec n (fun j => if InState (2 ^ n) j then haarItem g j else ψ j) = rawVec (2 ^ n) g := by
  ext i
  have h := toNat_ofNat_pow hn i.isLt
  rw [vec_apply, if_pos (show InState (2 ^ n) (BitVec.ofNat 64 i.val) from lt_of_eq_of_lt h i.isLt)]
  show haarItem g _ = _
  unfold haarItem rawVec
  rw [h]

theorem vec_of_normalizes {n : Nat} (hn : n ≤ 63) {ψ ψ' : U64 → ℂ} (h : Normalizes n ψ ψ') : vec n ψ ≠ 0 ∧ vec n ψ' = direction (vec n ψ) := by
  have h0 : normSq (2 ^ n) ψ ≠ 0 := by
    intro h0
    obtain ⟨dev, hd, -⟩ := h
    rw [normalizes_zero hn h0] at hd
    cases hd
  refine ⟨fun e => h0 ((vec_eq_zero hn ψ).1 e), ?_⟩
  rw [Normalizes.unique h (normalizes hn h0)]
  ext i
  have hi := toNat_ofNat_pow hn i.isLt
  rw [vec_apply, if_pos (show InState (2 ^ n) (BitVec.ofNat 64 i.val) from lt_of_eq_of_lt hi i.isLt), sqrt_normSq hn]
  unfold direction
  rw [PiLp.smul_apply, vec_apply, smul_eq_mul, div_eq_inv_mul]

theorem setsHaar_vec {n : Nat} (hn : n ≤ 63) {g : Nat → Bool → ℝ} {ψ ψ' : U64 → ℂ} (h : SetsHaar n g ψ ψ') :
    vec n ψ' = direction (rawVec (2 ^ n) g) := by
  obtain ⟨φ, h1, h2⟩ := h
  rw [(vec_of_normalizes hn h2).2, h1.unique (fill_runs (pow64 hn) (haarItem g) ψ), vec_haarItem hn]

theorem setsHaar_exists {n : Nat} (hn : n ≤ 63) {g : Nat → Bool → ℝ} (hg : rawVec (2 ^ n) g ≠ 0) (ψ : U64 → ℂ) : ∃ ψ', SetsHaar n g ψ ψ' := by
  refine ⟨_, _, fill_runs (pow64 hn) (haarItem g) ψ, normalizes hn fun h0 => hg ?_⟩
  rw [← vec_haarItem hn g ψ]
  exact (vec_eq_zero hn _).2 h0

theorem setsHaar_unique {n : Nat} {g : Nat → Bool → ℝ} {ψ a b : U64 → ℂ} (h1 : SetsHaar n g ψ a) (h2 : SetsHaar n g ψ b) : a = b := by
  obtain ⟨φ, r, s⟩ := h1
  obtain ⟨φ', r', s'⟩ := h2
  obtain rfl := r.unique r'
  exact Normalizes.unique s s'

/-- a fill by a state copies it -/
theorem vec_fill {n : Nat} (hn : n ≤ 63) {ψ m m' : U64 → ℂ} (h : DRuns (2 ^ n) (.par (2 ^ n) (fill (2 ^ n) ψ)) m m') : vec n m' = vec n ψ := by
  rw [h.unique (fill_runs (pow64 hn) ψ m)]
  exact vec_congr hn fun j hj => if_pos hj

/-! ## independence of blocks of draws -/

section draws
variable {Ω : Type*} [MeasurableSpace Ω] {μ : Measure Ω} [IsProbabilityMeasure μ]

/-- families of independent random numbers are independent of each other -/
theorem indep_blocks {κ : Type*} {g : ℕ → κ → Ω → ℝ} (hm : ∀ b k, Measurable (g b k)) (h : iIndepFun (fun p : ℕ × κ => g p.1 p.2) μ) :
    iIndepFun (fun b ω => (g b · ω)) μ := by
  have h1 := (iIndepFun_iff_map_fun_eq_infinitePi_map (fun p : ℕ × κ => hm p.1 p.2)).1 h
  have hpr : ∀ b k, IsProbabilityMeasure (μ.map (g b k)) := fun b k => Measure.isProbabilityMeasure_map (hm b k).aemeasurable
  have hb : ∀ b, Measurable fun ω => (g b · ω) := fun b => measurable_pi_lambda _ fun k => hm b k
  rw [iIndepFun_iff_map_fun_eq_infinitePi_map hb]
  have e : (fun ω b => (g b · ω)) = MeasurableEquiv.curry ℕ κ ℝ ∘ fun ω (p : ℕ × κ) => g p.1 p.2 ω := rfl
  have hp : Measurable fun ω (p : ℕ × κ) => g p.1 p.2 ω := measurable_pi_lambda _ fun p => hm p.1 p.2
  rw [e, ← Measure.map_map (MeasurableEquiv.measurable _) hp, h1, Measure.infinitePi_map_curry (μ := fun b k => μ.map (g b k))]
  congr 1
  funext b
  have hi : iIndepFun (g b) μ := h.precomp (g := fun k => (b, k)) fun x y e => by simpa using e
  exact ((iIndepFun_iff_map_fun_eq_infinitePi_map (hm b)).1 hi).symm

omit [IsProbabilityMeasure μ] in
theorem normalDraws_block {κ : Type*} {g : ℕ → κ → Ω → ℝ} (h : NormalDraws μ fun p : ℕ × κ => g p.1 p.2) (b : ℕ) : NormalDraws μ (g b) :=
  ⟨fun k => h.meas (b, k), h.indep.precomp (g := fun k => (b, k)) fun x y e => by simpa using e, fun k => h.law (b, k)⟩

end draws

/-! ## unitary gates as isometries -/

theorem gate_isometry {d : GateDesc} {g : UGate} (hd : DescOK d) (hu : UnitaryDesc d) (h : d.build = .ok g) {n : Nat} (hn : n ≤ 63)
    (hq : ∀ q ∈ qubitsOf d, q < n) : ∃ U : Vect n ≃ₗᵢ[ℂ] Vect n, ∀ ψ, vec n (onState (2 ^ n) (operatorOf d) ψ) = U (vec n ψ) := by
  have hloc : ∀ ψ φ : U64 → ℂ, vec n ψ = vec n φ → vec n (operatorOf d ψ) = vec n (operatorOf d φ) := by
    intro ψ φ e
    have h1 := vec_operator_norm hd hu h hn hq fun j => ψ j - φ j
    rw [operatorOf_sub, vec_sub, vec_sub, e, sub_self, norm_zero, norm_eq_zero, sub_eq_zero] at h1
    exact h1
  let T : Vect n →ₗᵢ[ℂ] Vect n :=
    { toFun := fun x => vec n (operatorOf d (unvec x))
      map_add' := fun x y => by
        rw [← vec_add, hloc (unvec (x + y)) (fun j => unvec x j + unvec y j) (by rw [vec_unvec hn, vec_add, vec_unvec hn, vec_unvec hn])]
        exact congrArg _ (applyMat_add (ts := targetsOf d) (cs := controlsOf d) (matrixOf d) _ _)
      map_smul' := fun c x => by
        rw [RingHom.id_apply, ← vec_smul, hloc (unvec (c • x)) (fun j => c * unvec x j) (by rw [vec_unvec hn, vec_smul, vec_unvec hn])]
        exact congrArg _ (applyMat_smul (ts := targetsOf d) (cs := controlsOf d) (matrixOf d) _ _)
      norm_map' := fun x => by
        show ‖vec n (operatorOf d (unvec x))‖ = ‖x‖
        rw [vec_operator_norm hd hu h hn hq, vec_unvec hn] }
  refine ⟨T.toLinearIsometryEquiv rfl, fun ψ => ?_⟩
  rw [vec_onState hn]
  show _ = vec n (operatorOf d (unvec (vec n ψ)))
  exact hloc _ _ (vec_unvec hn _).symm

end Verif.Proofs
