import Verif.Proofs.PowerEnergy

/-! # C64: the power method

`A` is the operator of the terms, `inner … ψ (A ψ)` the energy of a normalised state. -/

namespace Verif.Props
open Verif Verif.Spec Verif.Model Verif.Proofs
attribute [-simp] BitVec.getLsbD_eq_getElem

/-- the shift used for the argument `mu`: the one given, otherwise the sum of the absolute values of the coefficients -/
def UsesShift (o : Op) (mu : Option ℂ) (μ : ℂ) : Prop :=
  mu = some μ ∨ mu = none ∧ μ = (((o.terms.map fun p => |p.coef.re|).sum : ℝ) : ℂ)

theorem usesShift_eq {o : Op} {mu : Option ℂ} {μ : ℂ} (h : UsesShift o mu μ) : o.muOr mu = μ := by
  rcases h with rfl | ⟨rfl, rfl⟩ <;> rfl

/-- **C64 (result).** The outcome is determined by `χ = (A - μ)^k ψ`: for `k = 0` the initial state and its energy; for `k > 0` and
`χ ≠ 0` a normalised state, a positive multiple of `χ`, and its energy; for `χ = 0` a division by zero.  An operator without terms or
without the Hermitian flag is rejected. -/
theorem C64_result (o : Op) {n : Nat} (h1 : 1 ≤ n) (hn : n ≤ 63) (ho : OpFits o n) (ψ : U64 → ℂ) (k : Nat) {mu : Option ℂ} {μ : ℂ}
    (hμ : UsesShift o mu μ) :
    (o.terms ≠ [] → o.hermitian = true →
      (k = 0 ∨ normSq (2 ^ n) ((shiftedBy (sumOperator o.terms) μ)^[k] ψ) ≠ 0 → ∃ g : GroundState,
        (∀ r, o.PowerMethod n ψ k mu r ↔ r = .ok g) ∧ g.eigenvalue = inner (2 ^ n) g.state (sumOperator o.terms g.state) ∧
        (k = 0 → g.state = ψ) ∧
        (0 < k → normSq (2 ^ n) g.state = 1 ∧ ∃ c : ℝ, 0 < c ∧
          ∀ j, j.toNat < 2 ^ n → g.state j = c * (shiftedBy (sumOperator o.terms) μ)^[k] ψ j)) ∧
      (0 < k → normSq (2 ^ n) ((shiftedBy (sumOperator o.terms) μ)^[k] ψ) = 0 →
        ∀ r, o.PowerMethod n ψ k mu r ↔ r = .error (.ub "division by zero"))) ∧
    (o.terms = [] ∨ o.hermitian = false → ∃ e, ∀ r, o.PowerMethod n ψ k mu r ↔ r = .error (.throw e)) := by
  refine ⟨fun hl hh => ?_, fun h => ?_⟩
  · have hx := opFits_x ho
    obtain ⟨p1, p2⟩ := power_outcome h1 hn ho hl hh ψ k mu
    rw [usesShift_eq hμ, ← vec_shiftedBy_iter hn hx, ← sumOperator_fun] at p1 p2
    set χ := (shiftedBy (sumOperator o.terms) μ)^[k] ψ with hχ
    rw [ne_eq, vec_eq_zero hn χ] at p1
    rw [vec_eq_zero hn χ] at p2
    refine ⟨fun h => ?_, p2⟩
    obtain ⟨g, e1, e2, e3, e4⟩ := p1 h
    refine ⟨g, e1, e2, e3, fun hk => ?_⟩
    have hne : vec n χ ≠ 0 := fun e => (h.resolve_left (by omega)) ((vec_eq_zero hn χ).1 e)
    have hnn : ‖vec n χ‖ ≠ 0 := norm_ne_zero_iff.2 hne
    have e := e4 hk
    refine ⟨?_, ‖vec n χ‖⁻¹, by positivity, fun j hj => ?_⟩
    · rw [normSq_vec hn, e, norm_smul, Complex.norm_real, norm_inv, norm_norm, inv_mul_cancel₀ hnn, one_pow]
    · rw [← vec_smul] at e
      exact vec_inj e hj
  · unfold Op.PowerMethod
    by_cases hl : o.terms = []
    · refine ⟨_, fun r => by rw [if_pos (by rw [hl]; rfl)]⟩
    · exact ⟨_, fun r => by rw [if_neg (by rwa [List.length_eq_zero_iff]), if_pos (h.resolve_left hl)]⟩

/-- **C64 (default shift).** With real coefficients the default shift bounds the energies from both sides. -/
theorem C64_default_shift (o : Op) {n : Nat} (hn : n ≤ 63) (ho : OpFits o n) (hc : ∀ p ∈ o.terms, p.coef.im = 0) :
    ∃ μ : ℝ, UsesShift o none μ ∧ EnergyAtMost n (sumOperator o.terms) μ ∧ EnergyAtLeast n (sumOperator o.terms) (-μ) :=
  ⟨_, Or.inr ⟨rfl, rfl⟩, energyAtMost_default hn ho hc⟩

/-- **C64 (failure).** With real coefficients and a real shift, `k ≥ 1` iterations end in a division by zero exactly if the initial state
is zero or an eigenstate whose eigenvalue is the shift. -/
theorem C64_fails (o : Op) {n : Nat} (h1 : 1 ≤ n) (hn : n ≤ 63) (ho : OpFits o n) (hl : o.terms ≠ []) (hh : o.hermitian = true)
    (hc : ∀ p ∈ o.terms, p.coef.im = 0) (ψ : U64 → ℂ) {k : Nat} (hk : 0 < k) {mu : Option ℂ} {μ : ℝ} (hμ : UsesShift o mu μ) :
    (∀ r, o.PowerMethod n ψ k mu r ↔ r = .error (.ub "division by zero")) ↔
      ∀ j, j.toNat < 2 ^ n → sumOperator o.terms ψ j = μ * ψ j := by
  have hx := opFits_x ho
  obtain ⟨p1, p2⟩ := power_outcome h1 hn ho hl hh ψ k mu
  rw [usesShift_eq hμ] at p1 p2
  have hz := shiftLin_pow_zero hn hx hc μ hk (vec n ψ)
  have he : shiftLin n o.terms μ (vec n ψ) = 0 ↔ ∀ j, j.toNat < 2 ^ n → sumOperator o.terms ψ j = μ * ψ j := by
    rw [shiftLin_apply, sub_eq_zero, ← vec_opAct hn hx, ← vec_smul, sumOperator_eq]
    exact ⟨fun e j hj => vec_inj e hj, fun h => vec_congr hn h⟩
  rw [← he, ← hz]
  constructor
  · intro h
    by_contra h0
    obtain ⟨g, e, _⟩ := p1 (Or.inr h0)
    have := (e _).1 ((h _).2 rfl)
    cases this
  · intro h; exact p2 hk h

/-- **C64 (energy, partial).** For an operator with real coefficients, a shift above all energies and a successful run of `k ≥ 1`
iterations: the value is real, lies between every lower bound of the energies and the shift, is not above the value of one iteration less,
and its distance from any eigenvalue `E` is controlled by the overlap with the eigenvector: `|⟨v|ψ⟩|²(μ-E)^(2k) ≤ ‖v‖²‖ψ‖²(μ-e)^(2k)`.
Missing: a shift that is itself an energy, `C64_counterexample`. -/
theorem C64_energy_partial (o : Op) {n : Nat} (h1 : 1 ≤ n) (hn : n ≤ 63) (ho : OpFits o n) (hl : o.terms ≠ []) (hh : o.hermitian = true)
    (hc : ∀ p ∈ o.terms, p.coef.im = 0) (ψ : U64 → ℂ) {k : Nat} (hk : 0 < k) {mu : Option ℂ} {μ : ℝ} (hμ : UsesShift o mu μ)
    (hb : EnergyAtMost n (sumOperator o.terms) μ) {g : GroundState} (hg : o.PowerMethod n ψ k mu (.ok g)) :
    g.eigenvalue.im = 0 ∧ g.eigenvalue.re ≤ μ ∧
    (∀ b, EnergyAtLeast n (sumOperator o.terms) b → b ≤ g.eigenvalue.re) ∧
    (∀ g', o.PowerMethod n ψ (k + 1) mu (.ok g') → g'.eigenvalue.re ≤ g.eigenvalue.re) ∧
    (normSq (2 ^ n) ψ = 1 → g.eigenvalue.re ≤ (inner (2 ^ n) ψ (sumOperator o.terms ψ)).re) ∧
    (∀ (E : ℝ) v, IsEigen n (sumOperator o.terms) E v →
      Complex.normSq (inner (2 ^ n) v ψ) * (μ - E) ^ (2 * k) ≤
        normSq (2 ^ n) v * normSq (2 ^ n) ψ * (μ - g.eigenvalue.re) ^ (2 * k)) := by
  have hx := opFits_x ho
  have hB := gapLin_symm hn hx hc μ
  have hp := energyAtMost_psd hn ho hb
  -- every successful run
  have run : ∀ (k : Nat), 0 < k → ∀ g, o.PowerMethod n ψ k mu (.ok g) →
      g.eigenvalue = inner (2 ^ n) g.state (sumOperator o.terms g.state) ∧ normSq (2 ^ n) g.state = 1 ∧
      (gapLin n o.terms μ ^ k) (vec n ψ) ≠ 0 ∧ μ - g.eigenvalue.re =
      (Inner.inner ℂ ((gapLin n o.terms μ ^ k) (vec n ψ)) (gapLin n o.terms μ ((gapLin n o.terms μ ^ k) (vec n ψ)))).re /
        ‖(gapLin n o.terms μ ^ k) (vec n ψ)‖ ^ 2 := by
    intro k hk g hg
    obtain ⟨p1, p2⟩ := power_outcome h1 hn ho hl hh ψ k mu
    rw [usesShift_eq hμ] at p1 p2
    have h0 : (shiftLin n o.terms μ ^ k) (vec n ψ) ≠ 0 := by
      intro h0
      have := (p2 hk h0 _).1 hg
      cases this
    obtain ⟨g', e1, e2, _, e4⟩ := p1 (Or.inr h0)
    have := (e1 _).1 hg
    cases this
    obtain ⟨q1, q2, q3⟩ := power_quotient hn ho h0 (e4 hk)
    rw [← e2] at q3
    exact ⟨e2, q1, q2, q3⟩
  obtain ⟨e2, q1, q2, q3⟩ := run k hk g hg
  set y := (gapLin n o.terms (μ : ℂ) ^ k) (vec n ψ) with hy
  have hy0 : 0 < ‖y‖ ^ 2 := by have := norm_pos_iff.2 q2; positivity
  refine ⟨?_, ?_, fun b h => ?_, fun g' hg' => ?_, fun hψ => ?_, fun E v hv => ?_⟩
  · rw [e2]; exact energy_real hn ho hc _
  · have := hb g.state
    rwa [← e2, q1, mul_one] at this
  · have := h g.state
    rwa [← e2, q1, mul_one] at this
  · obtain ⟨_, _, q2', q3'⟩ := run (k + 1) (by omega) g' hg'
    rw [pow_succ', Module.End.mul_apply, ← hy] at q2' q3'
    have hy1 : 0 < ‖gapLin n o.terms (μ : ℂ) y‖ ^ 2 := by have := norm_pos_iff.2 q2'; positivity
    have hm := rayleigh_mono hB hp y
    have : μ - g.eigenvalue.re ≤ μ - g'.eigenvalue.re := by
      rw [q3, q3', div_le_div_iff₀ hy0 hy1]; linarith
    linarith
  · -- the quotients increase with the number of iterations
    have hψn : ‖vec n ψ‖ ^ 2 = 1 := by rw [← normSq_vec hn, hψ]
    have key : ∀ m : Nat, (gapLin n o.terms (μ : ℂ) ^ m) (vec n ψ) ≠ 0 →
        (Inner.inner ℂ (vec n ψ) (gapLin n o.terms μ (vec n ψ))).re * ‖(gapLin n o.terms (μ : ℂ) ^ m) (vec n ψ)‖ ^ 2 ≤
        (Inner.inner ℂ ((gapLin n o.terms μ ^ m) (vec n ψ)) (gapLin n o.terms μ ((gapLin n o.terms μ ^ m) (vec n ψ)))).re := by
      intro m
      induction m with
      | zero => intro _; rw [pow_zero, Module.End.one_apply, hψn, mul_one]
      | succ m ih =>
        intro hne
        rw [pow_succ' (gapLin n o.terms (μ : ℂ)), Module.End.mul_apply] at hne ⊢
        set z := (gapLin n o.terms (μ : ℂ) ^ m) (vec n ψ) with hz
        have hz0 : z ≠ 0 := fun e => hne (by rw [e, map_zero])
        have hz1 : 0 < ‖z‖ ^ 2 := by have := norm_pos_iff.2 hz0; positivity
        have hm := rayleigh_mono hB hp z
        have i := ih hz0
        have hw : 0 ≤ ‖gapLin n o.terms (μ : ℂ) z‖ ^ 2 := by positivity
        have := mul_le_mul_of_nonneg_right i hw
        nlinarith
    have := key k q2
    rw [← hy, gap_energy, hψn, mul_one] at this
    rw [inner_vec hn, sumOperator_eq, vec_opAct hn hx]
    have : μ - (Inner.inner ℂ (vec n ψ) (opLin n o.terms (vec n ψ))).re ≤ μ - g.eigenvalue.re := by
      rw [q3, le_div_iff₀ hy0]; exact this
    linarith
  · have hvB : gapLin n o.terms μ (vec n v) = ((μ - E : ℝ) : ℂ) • vec n v := by
      rw [gapLin_apply, ← vec_opAct hn hx, vec_congr hn (ψ := OpAct o.terms v) (φ := fun j => (E : ℂ) * v j)
          (fun j hj => by rw [← hv.2 j hj, sumOperator_eq]),
        vec_smul, ← sub_smul]
      push_cast; rfl
    have := rayleigh_overlap hB hp (vec n ψ) (vec n v) (μ - E) hvB k q2
    rw [← hy, ← q3] at this
    rw [inner_vec hn, Complex.normSq_eq_norm_sq, normSq_vec hn, normSq_vec hn]
    exact this

/-- **C64 (convergence, partial).** If the shift is above all energies, `E` below the shift is the ground energy (an eigenvalue and a
lower bound of the energies), and the initial state has a component along an eigenvector of `E`, then every number of iterations succeeds
and the values converge to `E`.  Missing: as above. -/
theorem C64_converges_partial (o : Op) {n : Nat} (h1 : 1 ≤ n) (hn : n ≤ 63) (ho : OpFits o n) (hl : o.terms ≠ []) (hh : o.hermitian = true)
    (hc : ∀ p ∈ o.terms, p.coef.im = 0) (ψ : U64 → ℂ) {mu : Option ℂ} {μ : ℝ} (hμ : UsesShift o mu μ)
    (hb : EnergyAtMost n (sumOperator o.terms) μ) {E : ℝ} (hE : E < μ) (hg : EnergyAtLeast n (sumOperator o.terms) E)
    {v : U64 → ℂ} (hv : IsEigen n (sumOperator o.terms) E v) (hov : inner (2 ^ n) v ψ ≠ 0) :
    (∀ k, ∃ g, ∀ r, o.PowerMethod n ψ k mu r ↔ r = .ok g) ∧
    ∀ ε > 0, ∃ K, ∀ k ≥ K, ∀ g, o.PowerMethod n ψ k mu (.ok g) → E ≤ g.eigenvalue.re ∧ g.eigenvalue.re < E + ε := by
  have hx := opFits_x ho
  constructor
  · intro k
    obtain ⟨p1, p2⟩ := power_outcome h1 hn ho hl hh ψ k mu
    rw [usesShift_eq hμ] at p1 p2
    rcases Nat.eq_zero_or_pos k with rfl | hk
    · obtain ⟨g, e, _⟩ := p1 (Or.inl rfl)
      exact ⟨g, e⟩
    by_cases h0 : (shiftLin n o.terms (μ : ℂ) ^ k) (vec n ψ) = 0
    · exfalso
      rw [shiftLin_pow_zero hn hx hc μ hk] at h0
      have hB := gapLin_symm hn hx hc μ
      have hvB : gapLin n o.terms μ (vec n v) = ((μ - E : ℝ) : ℂ) • vec n v := by
        rw [gapLin_apply, ← vec_opAct hn hx, vec_congr hn (ψ := OpAct o.terms v) (φ := fun j => (E : ℂ) * v j)
          (fun j hj => by rw [← hv.2 j hj, sumOperator_eq]),
          vec_smul, ← sub_smul]
        push_cast; rfl
      have e := hB (vec n v) (vec n ψ)
      rw [show gapLin n o.terms (μ : ℂ) (vec n ψ) = -shiftLin n o.terms μ (vec n ψ) from rfl, h0, neg_zero, inner_zero_right, hvB,
        _root_.inner_smul_left, Complex.conj_ofReal, mul_eq_zero, ← inner_vec hn] at e
      rcases e with e | e
      · rw [Complex.ofReal_eq_zero] at e; linarith
      · exact hov e
    · obtain ⟨g, e, _⟩ := p1 (Or.inr h0)
      exact ⟨g, e⟩
  · intro ε hε
    obtain ⟨K, hK⟩ := overlap_converges (C := Complex.normSq (inner (2 ^ n) v ψ)) (N := normSq (2 ^ n) v * normSq (2 ^ n) ψ) (q := μ - E)
      (Complex.normSq_pos.2 hov) (by rw [normSq_vec hn, normSq_vec hn]; positivity) (by linarith) hε
    refine ⟨K + 1, fun k hk g hg' => ?_⟩
    obtain ⟨_, e2, e3, _, _, e6⟩ := C64_energy_partial o h1 hn ho hl hh hc ψ (show 0 < k by omega) hμ hb hg'
    refine ⟨e3 E hg, ?_⟩
    have := hK k (by omega) (μ - g.eigenvalue.re) (by linarith) (e6 E v hv)
    linarith

/-! ## a case that meets the hypotheses and one that does not -/

/-- `Z₀` -/
noncomputable def zOp : Op := Op.ofTerms [⟨1, 0, 1⟩]

theorem zOp_terms : zOp.terms = [⟨1, 0, 1⟩] := rfl

theorem zOp_hermitian : zOp.hermitian = true := by simp [zOp, Op.ofTerms, realCoefs]

theorem zOp_real : ∀ p ∈ zOp.terms, p.coef.im = 0 := by simp [zOp_terms]

theorem zOp_fits : OpFits zOp 1 := by
  intro p hp
  rw [zOp_terms, List.mem_singleton] at hp
  subst hp
  unfold PauliFits
  rw [show pauliQubits ⟨1, 0, 1⟩ = [0] from by simp only [pauliQubits]; decide]
  simp

theorem zOp_act (ψ : U64 → ℂ) (j : U64) (hj : j.toNat < 2 ^ 1) : sumOperator zOp.terms ψ j = if j = 0 then ψ j else -ψ j := by
  rw [sumOperator_eq, zOp_terms]
  have h : j = 0 ∨ j = 1 := by
    have : j.toNat = 0 ∨ j.toNat = 1 := by omega
    rcases this with h | h
    · exact Or.inl (BitVec.eq_of_toNat_eq h)
    · exact Or.inr (BitVec.eq_of_toNat_eq h)
  have p0 : popcount (0 : U64) = 0 := by decide
  have p1 : popcount (1 : U64) = 1 := by decide
  rcases h with rfl | rfl
  · simp [OpAct, PauliAct, pauliAct, pauliExp, show popcount 0#64 = 0 from p0]
  · simp [OpAct, PauliAct, pauliAct, pauliExp, show popcount 0#64 = 0 from p0, show popcount 1#64 = 1 from p1]

theorem zOp_shift : UsesShift zOp none ((1 : ℝ) : ℂ) := Or.inr ⟨rfl, by simp [zOp_terms]⟩

/-- **C64 fails** for the default shift: `Z₀` started in `|0⟩` divides by zero, for every positive number of iterations. -/
theorem C64_counterexample (k : Nat) :
    ∀ r, zOp.PowerMethod 1 (basisState 0) (k + 1) none r ↔ r = .error (.ub "division by zero") := by
  refine (C64_fails zOp (le_refl 1) (by omega) zOp_fits (by simp [zOp_terms]) zOp_hermitian zOp_real (basisState 0) (Nat.succ_pos k)
    zOp_shift).2 fun j hj => ?_
  rw [zOp_act _ j hj]
  split
  · simp
  · rename_i h; simp [basisState, show ¬ j = 0#64 from h]

/-- the state `|0⟩ + |1⟩` -/
noncomputable def plusState : U64 → ℂ := fun _ => 1

theorem zOp_eigen : IsEigen 1 (sumOperator zOp.terms) ((-1 : ℝ) : ℂ) (basisState 1) := by
  constructor
  · rw [normSq_vec (by omega), EuclideanSpace.norm_sq_eq]
    simp [Fin.sum_univ_two, basisState]
  · intro j hj
    rw [zOp_act _ j hj]
    split
    · rename_i h; subst h; simp [basisState]
    · simp

theorem zOp_overlap : Spec.inner (2 ^ 1) (basisState 1) plusState ≠ 0 := by
  rw [inner_vec (n := 1) (by omega), PiLp.inner_apply]
  simp [Fin.sum_univ_two, basisState, plusState]

/-- the hypotheses of `C64_converges_partial` (and with it those of `C64_energy_partial`) for `Z₀`, `|0⟩ + |1⟩` and the default shift -/
example : ∀ ε > 0, ∃ K, ∀ k ≥ K, ∀ g, zOp.PowerMethod 1 plusState k none (.ok g) →
    (-1 : ℝ) ≤ g.eigenvalue.re ∧ g.eigenvalue.re < (-1 : ℝ) + ε := by
  have hd := energyAtMost_default (o := zOp) (n := 1) (by omega) zOp_fits zOp_real
  have hs : (zOp.terms.map fun p => |p.coef.re|).sum = 1 := by simp [zOp_terms]
  rw [hs] at hd
  exact (C64_converges_partial zOp (le_refl 1) (by omega) zOp_fits (by simp [zOp_terms]) zOp_hermitian zOp_real plusState zOp_shift hd.1
    (by norm_num) hd.2 zOp_eigen zOp_overlap).2

end Verif.Props
