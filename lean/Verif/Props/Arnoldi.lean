import Verif.Proofs.ArnoldiMethod
import Verif.Props.GroundState

/-! # C65: the Arnoldi method

The eigenvalue solver of Eigen is an arbitrary function whose answers, if it gives one, are eigenvalue decompositions. -/

namespace Verif.Props
open Verif Verif.Spec Verif.Model Verif.Proofs
attribute [-simp] BitVec.getLsbD_eq_getElem

/-- the answers of the solver are correct -/
def SolverOK (solver : EigenSolver) : Prop := ∀ k H vals X, solver k H = some (vals, X) → EigenDecomposition k H vals X

/-- there is a solver that always answers and is correct -/
theorem solver_exists : ∃ solver : EigenSolver, SolverOK solver ∧ ∀ k H, solver k H ≠ none := by
  choose V X h using eigen_exists
  refine ⟨fun k H => some (V k H, X k H), ?_, ?_⟩
  · intro k H vals Y e
    cases e
    exact h k H
  · intro k H e; cases e

theorem vec_powers {n : Nat} (hn : n ≤ 63) {o : Op} (ho : OpFits o n) (ψ : U64 → ℂ) (i : Nat) :
    vec n ((sumOperator o.terms)^[i] ψ) = powers (opLin n o.terms) (vec n ψ) i := by
  induction i with
  | zero => rfl
  | succ i ih =>
    rw [Function.iterate_succ_apply', sumOperator_eq, vec_opAct hn (opFits_x ho), ih]
    unfold powers
    rw [pow_succ', Module.End.mul_apply]

theorem vec_krylov {n : Nat} (hn : n ≤ 63) {o : Op} (ho : OpFits o n) (ψ : U64 → ℂ) (k : Nat) (a : Nat → ℂ) :
    vec n (krylov (sumOperator o.terms) k a ψ) = ∑ i ∈ Finset.range k, a i • powers (opLin n o.terms) (vec n ψ) i := by
  ext l
  simp only [← vec_powers hn ho]
  simp [krylov]

theorem mem_krylov {n : Nat} (hn : n ≤ 63) {o : Op} (ho : OpFits o n) (ψ φ : U64 → ℂ) (k : Nat) :
    vec n φ ∈ spanOf (powers (opLin n o.terms) (vec n ψ)) k ↔ ∃ a, ∀ j, j.toNat < 2 ^ n → φ j = krylov (sumOperator o.terms) k a ψ j := by
  rw [mem_spanOf]
  constructor
  · rintro ⟨a, ha⟩
    rw [← vec_krylov hn ho] at ha
    exact ⟨a, fun j hj => (vec_inj ha hj).symm⟩
  · rintro ⟨a, ha⟩
    exact ⟨a, by rw [← vec_krylov hn ho]; exact (vec_congr hn ha).symm⟩

theorem dependent_iff {n : Nat} (hn : n ≤ 63) {o : Op} (ho : OpFits o n) (ψ : U64 → ℂ) (k : Nat) :
    KrylovDependent n (sumOperator o.terms) k ψ ↔
      ∃ i < k, powers (opLin n o.terms) (vec n ψ) i ∈ spanOf (powers (opLin n o.terms) (vec n ψ)) i := by
  unfold KrylovDependent
  simp only [← mem_krylov hn ho, vec_powers hn ho]

/-- the property of the value and state returned: a normalised vector of the Krylov space with its energy; for real coefficients the least
energy in the Krylov space -/
def IsLeastKrylov (n : Nat) (o : Op) (k : Nat) (ψ : U64 → ℂ) (g : GroundState) : Prop :=
  normSq (2 ^ n) g.state = 1 ∧
  (∃ a, ∀ j, j.toNat < 2 ^ n → g.state j = krylov (sumOperator o.terms) k a ψ j) ∧
  inner (2 ^ n) g.state (sumOperator o.terms g.state) = g.eigenvalue ∧
  ((∀ p ∈ o.terms, p.coef.im = 0) → g.eigenvalue.im = 0 ∧ ∀ a,
    g.eigenvalue.re * normSq (2 ^ n) (krylov (sumOperator o.terms) k a ψ) ≤
      (inner (2 ^ n) (krylov (sumOperator o.terms) k a ψ) (sumOperator o.terms (krylov (sumOperator o.terms) k a ψ))).re)

theorem isLeastKrylov_of {n : Nat} (hn : n ≤ 63) {o : Op} (ho : OpFits o n) {ψ : U64 → ℂ} {k : Nat} {g : GroundState}
    (h : RitzOutcome (opLin n o.terms) (vec n ψ) k g) : IsLeastKrylov n o k ψ g := by
  refine ⟨by rw [normSq_vec hn, h.unit, one_pow], (mem_krylov hn ho _ _ _).1 h.mem, ?_, fun hc => ?_⟩
  · rw [inner_vec hn, sumOperator_eq, vec_opAct hn (opFits_x ho)]; exact h.energy
  · obtain ⟨h1, h2⟩ := h.least (opLin_symmetric hn (opFits_x ho) hc)
    refine ⟨h1, fun a => ?_⟩
    have := h2 (vec n (krylov (sumOperator o.terms) k a ψ)) ((mem_krylov hn ho _ _ _).2 ⟨a, fun _ _ => rfl⟩)
    rwa [inner_vec hn, sumOperator_eq, vec_opAct hn (opFits_x ho), normSq_vec hn]

/-- **C65 (partial).** For a normalised initial state, `k ≥ 1` iterations, any shift (the default one included) and a correct solver: if
`ψ, Aψ, …, A^(k-1)ψ` are independent, the method returns (or throws because the solver did not converge), under every schedule, and what
it returns is a normalised state of their span with its energy, the least energy in the span if the coefficients are real; if they
are dependent, the method divides by zero.  An operator without terms is rejected.
Missing: dependent vectors, states that are not normalised, no iterations (`C65_counterexample_…`). -/
theorem C65_result_partial (o : Op) {n : Nat} (hn : n ≤ 63) (ho : OpFits o n) {solver : EigenSolver} (hs : SolverOK solver)
    (ψ : U64 → ℂ) (hψ : normSq (2 ^ n) ψ = 1) {k : Nat} (hk : 1 ≤ k) (mu : Option ℂ) :
    (o.terms ≠ [] →
      (¬ KrylovDependent n (sumOperator o.terms) k ψ → (∃ r, o.ArnoldiMethod solver n ψ k mu r) ∧
        ∀ r, o.ArnoldiMethod solver n ψ k mu r →
          (∃ e, r = .error (.throw e) ∧ ∃ H, solver k H = none) ∨ ∃ g, r = .ok g ∧ IsLeastKrylov n o k ψ g) ∧
      (KrylovDependent n (sumOperator o.terms) k ψ →
        ∀ r, o.ArnoldiMethod solver n ψ k mu r ↔ r = .error (.ub "division by zero"))) ∧
    (o.terms = [] → ∃ e, o.ArnoldiMethod solver n ψ k mu (.error (.throw e)) ∧
      ∀ r, o.ArnoldiMethod solver n ψ k mu r → r = .error (.throw e)) := by
  obtain ⟨k, rfl⟩ : ∃ m, k = m + 1 := ⟨k - 1, by omega⟩
  refine ⟨fun hl => ?_, fun hl => ?_⟩
  · obtain ⟨h1, h2⟩ := arnoldi_outcome hn ho hl hs ψ hψ k mu
    rw [dependent_iff hn ho]
    refine ⟨fun h => ?_, h1⟩
    push Not at h
    obtain ⟨a, b, _⟩ := h2 h
    refine ⟨a, fun r hr => ?_⟩
    rcases b r hr with e | ⟨g, e, hg⟩
    · exact Or.inl e
    · exact Or.inr ⟨g, e, isLeastKrylov_of hn ho hg⟩
  · have h0 : o.terms.length = 0 := by rw [hl]; rfl
    refine ⟨_, .noTerms h0, fun r hr => ?_⟩
    cases hr with
    | noTerms _ => rfl
    | nan _ h => exact absurd h0 h
    | noConvergence _ _ h => exact absurd h0 h
    | noEigenvalue _ _ _ h => exact absurd h0 h
    | found _ _ _ _ _ _ _ _ _ _ h => exact absurd h0 h
    | zeroVector _ _ _ _ _ _ _ _ _ h => exact absurd h0 h

/-- **C65 (exactness).** For real coefficients, if `A^k ψ` depends on the lower powers (so that `k` is the largest number of iterations
that does not divide by zero), the state returned is an eigenstate, and its eigenvalue is the least of all eigenvalues with an eigenvector
not orthogonal to `ψ`; in particular the ground energy if `ψ` has a component along a ground state. -/
theorem C65_exact (o : Op) {n : Nat} (hn : n ≤ 63) (ho : OpFits o n) (hl : o.terms ≠ []) (hc : ∀ p ∈ o.terms, p.coef.im = 0)
    {solver : EigenSolver} (hs : SolverOK solver)
    (ψ : U64 → ℂ) (hψ : normSq (2 ^ n) ψ = 1) {k : Nat} (hk : 1 ≤ k) (mu : Option ℂ)
    (hi : ¬ KrylovDependent n (sumOperator o.terms) k ψ) (hd : KrylovDependent n (sumOperator o.terms) (k + 1) ψ)
    {g : GroundState} (hg : o.ArnoldiMethod solver n ψ k mu (.ok g)) :
    IsEigen n (sumOperator o.terms) g.eigenvalue g.state ∧
    (∀ (E : ℝ) v, IsEigen n (sumOperator o.terms) E v → inner (2 ^ n) v ψ ≠ 0 → g.eigenvalue.re ≤ E) ∧
    (∀ (E : ℝ) v, EnergyAtLeast n (sumOperator o.terms) E → IsEigen n (sumOperator o.terms) E v → inner (2 ^ n) v ψ ≠ 0 →
      g.eigenvalue = E) := by
  obtain ⟨k, rfl⟩ : ∃ m, k = m + 1 := ⟨k - 1, by omega⟩
  have hx := opFits_x ho
  obtain ⟨_, h2⟩ := arnoldi_outcome hn ho hl hs ψ hψ k mu
  rw [dependent_iff hn ho] at hi hd
  push Not at hi
  obtain ⟨_, b, _⟩ := h2 hi
  have hr : RitzOutcome (opLin n o.terms) (vec n ψ) (k + 1) g := by
    rcases b _ hg with ⟨e, h, _⟩ | ⟨g', h, hg'⟩
    · cases h
    · cases h; exact hg'
  have hmem : powers (opLin n o.terms) (vec n ψ) (k + 1) ∈ spanOf (powers (opLin n o.terms) (vec n ψ)) (k + 1) := by
    obtain ⟨i, h1, h2⟩ := hd
    have : i = k + 1 := by
      by_contra hne
      exact hi i (by omega) h2
    rwa [this] at h2
  have hinv : ∀ y ∈ spanOf (powers (opLin n o.terms) (vec n ψ)) (k + 1),
      opLin n o.terms y ∈ spanOf (powers (opLin n o.terms) (vec n ψ)) (k + 1) := by
    intro y hy
    have h1 := powers_map hy
    refine (spanOf_le.2 fun i hi' => ?_) h1
    by_cases e : i = k + 1
    · rw [e]; exact hmem
    · exact spanOf_self (by omega)
  have hsym := opLin_symmetric hn hx hc
  have hover : ∀ (E : ℝ) v, IsEigen n (sumOperator o.terms) E v → inner (2 ^ n) v ψ ≠ 0 → g.eigenvalue.re ≤ E := by
    intro E v hv hov
    refine hr.overlap hsym hinv (vec n v) E ?_ (spanOf_self (i := 0) (by omega)) (by rwa [← inner_vec hn])
    rw [← vec_opAct hn hx, ← vec_smul]
    exact vec_congr hn fun j hj => by rw [← hv.2 j hj, sumOperator_eq]
  refine ⟨⟨by rw [normSq_vec hn, hr.unit]; norm_num, fun j hj => ?_⟩, hover, fun E v hE hv hov => ?_⟩
  · have := hr.exact hinv
    rw [← vec_opAct hn hx, ← vec_smul] at this
    rw [sumOperator_eq]
    exact vec_inj this hj
  · obtain ⟨h1, _⟩ := hr.least hsym
    have hle := hover E v hv hov
    have hge := hE g.state
    rw [normSq_vec hn, hr.unit, inner_vec hn, sumOperator_eq, vec_opAct hn hx, hr.energy, one_pow, mul_one] at hge
    apply Complex.ext
    · exact le_antisymm hle hge
    · rw [h1]; rfl

/-- **C65 (compared with the power method).** For real coefficients and the same real shift, `k` iterations of the Arnoldi method never
give a higher value than `k - 1` iterations of the power method. -/
theorem C65_power (o : Op) {n : Nat} (h1 : 1 ≤ n) (hn : n ≤ 63) (ho : OpFits o n) (hl : o.terms ≠ []) (hh : o.hermitian = true)
    (hc : ∀ p ∈ o.terms, p.coef.im = 0) {solver : EigenSolver} (hs : SolverOK solver)
    (ψ : U64 → ℂ) (hψ : normSq (2 ^ n) ψ = 1) (k : Nat) (mu : Option ℂ)
    {g p : GroundState} (hg : o.ArnoldiMethod solver n ψ (k + 1) mu (.ok g)) (hp : o.PowerMethod n ψ k mu (.ok p)) :
    g.eigenvalue.re ≤ p.eigenvalue.re := by
  have hx := opFits_x ho
  obtain ⟨l1, l2⟩ := arnoldi_outcome hn ho hl hs ψ hψ k mu
  by_cases hd : ∃ i < k + 1, powers (opLin n o.terms) (vec n ψ) i ∈ spanOf (powers (opLin n o.terms) (vec n ψ)) i
  · have := (l1 hd _).1 hg; cases this
  push Not at hd
  obtain ⟨_, b, _⟩ := l2 hd
  have hr : RitzOutcome (opLin n o.terms) (vec n ψ) (k + 1) g := by
    rcases b _ hg with ⟨e, h, _⟩ | ⟨g', h, hg'⟩
    · cases h
    · cases h; exact hg'
  obtain ⟨_, hleast⟩ := hr.least (opLin_symmetric hn hx hc)
  -- the vectors of the power method lie in the Krylov space
  have hmem : ∀ i, i ≤ k → (shiftLin n o.terms (o.muOr mu) ^ i) (vec n ψ) ∈ spanOf (powers (opLin n o.terms) (vec n ψ)) (i + 1) := by
    intro i hi
    induction i with
    | zero => exact spanOf_self (i := 0) (by omega)
    | succ i ih =>
      have := ih (by omega)
      rw [pow_succ', Module.End.mul_apply, shiftLin_apply]
      exact Submodule.sub_mem _ (powers_map this) (Submodule.smul_mem _ _ (spanOf_mono (by omega) this))
  obtain ⟨p1, p2⟩ := power_outcome h1 hn ho hl hh ψ k mu
  have hcase : k = 0 ∨ (shiftLin n o.terms (o.muOr mu) ^ k) (vec n ψ) ≠ 0 := by
    rcases Nat.eq_zero_or_pos k with h | h
    · exact Or.inl h
    · refine Or.inr fun h0 => ?_
      have := (p2 h h0 _).1 hp
      cases this
  obtain ⟨p', e1, e2, e3, e4⟩ := p1 hcase
  have := (e1 _).1 hp
  cases this
  have hunit : ‖vec n p.state‖ = 1 ∧ vec n p.state ∈ spanOf (powers (opLin n o.terms) (vec n ψ)) (k + 1) := by
    rcases Nat.eq_zero_or_pos k with h | h
    · subst h
      rw [e3 rfl]
      refine ⟨?_, hmem 0 (le_refl 0)⟩
      have h2 : ‖vec n ψ‖ ^ 2 = 1 := by rw [← normSq_vec hn, hψ]
      have h3 := norm_nonneg (vec n ψ)
      nlinarith
    · rw [e4 h]
      have hne := norm_ne_zero_iff.2 (hcase.resolve_left (by omega))
      refine ⟨?_, Submodule.smul_mem _ _ (hmem k (le_refl k))⟩
      rw [norm_smul, Complex.norm_real, norm_inv, norm_norm, inv_mul_cancel₀ hne]
  have := hleast _ hunit.2
  rw [hunit.1, one_pow, mul_one] at this
  rwa [e2, inner_vec hn, sumOperator_eq, vec_opAct hn hx]

/-- **C65 fails** for more iterations than dimensions: always a division by zero. -/
theorem C65_counterexample_iterations (o : Op) {n : Nat} (hn : n ≤ 63) (ho : OpFits o n) (hl : o.terms ≠ []) {solver : EigenSolver}
    (hs : SolverOK solver) (ψ : U64 → ℂ) (hψ : normSq (2 ^ n) ψ = 1) {k : Nat} (hk : 2 ^ n < k) (mu : Option ℂ) :
    ∀ r, o.ArnoldiMethod solver n ψ k mu r ↔ r = .error (.ub "division by zero") := by
  obtain ⟨k, rfl⟩ : ∃ m, k = m + 1 := ⟨k - 1, by have := Nat.zero_le (2 ^ n); generalize 2 ^ n = N at *; omega⟩
  obtain ⟨h1, h2⟩ := arnoldi_outcome hn ho hl hs ψ hψ k mu
  by_cases hd : ∃ i < k + 1, powers (opLin n o.terms) (vec n ψ) i ∈ spanOf (powers (opLin n o.terms) (vec n ψ)) i
  · exact h1 hd
  · push Not at hd
    obtain ⟨_, _, h⟩ := h2 hd
    omega

theorem basis_norm : normSq (2 ^ 1) (basisState 1) = 1 := by
  rw [normSq_vec (n := 1) (by omega), EuclideanSpace.norm_sq_eq]
  simp [Fin.sum_univ_two, basisState]

/-- **C65 fails** for an initial state that is an eigenstate: `Z₀` started in its ground state `|1⟩`, for every number of iterations above 1. -/
theorem C65_counterexample_eigenstate {solver : EigenSolver} (hs : SolverOK solver) (k : Nat) (mu : Option ℂ) :
    ∀ r, zOp.ArnoldiMethod solver 1 (basisState 1) (k + 2) mu r ↔ r = .error (.ub "division by zero") := by
  refine ((C65_result_partial zOp (by omega) zOp_fits hs (basisState 1) basis_norm (by omega) mu).1 (by simp [zOp_terms])).2 ?_
  refine ⟨1, by omega, fun _ => -1, fun j hj => ?_⟩
  rw [Function.iterate_one, zOp_eigen.2 j hj]
  simp [krylov]

/-- **C65 fails** without iterations: the first of no eigenvalues is read. -/
theorem C65_counterexample_zero (o : Op) (hl : o.terms ≠ []) {solver : EigenSolver} (hs : SolverOK solver)
    (n : Nat) (ψ : U64 → ℂ) (mu : Option ℂ) (hsol : solver 0 (hessenberg []) ≠ none) :
    ∀ r, o.ArnoldiMethod solver n ψ 0 mu r ↔ r = .error (.ub "eigenvalues[0] out of range") := by
  have hll : o.terms.length ≠ 0 := by rwa [ne_eq, List.length_eq_zero_iff]
  obtain ⟨⟨vals, X⟩, hv⟩ := Option.ne_none_iff_exists'.1 hsol
  have hnil : vals = [] := List.length_eq_zero_iff.1 (hs _ _ _ _ hv).1
  subst hnil
  intro r
  constructor
  · intro h
    cases h with
    | noTerms h => exact absurd h hll
    | nan e _ h => cases h
    | noConvergence vs cols _ h h2 => cases h; rw [hv] at h2; cases h2
    | noEigenvalue vs cols X _ h h2 => rfl
    | found vs cols θ θs X junk g0 g1 g v _ h h2 => cases h; rw [hv] at h2; cases h2
    | zeroVector vs cols θ θs X junk g0 g1 e _ h h2 => cases h; rw [hv] at h2; cases h2
  · rintro rfl
    exact .noEigenvalue _ _ X hll (.done _ _) hv

/-- the state `2|1⟩` -/
noncomputable def twoState : U64 → ℂ := fun j => if j = 1 then 2 else 0

/-- **C65 fails** for a state that is not normalised: one iteration on `Z₀` and `2|1⟩` returns the value `-7` although no energy is
below `-1`. -/
theorem C65_counterexample_norm {solver : EigenSolver} (hs : SolverOK solver) (ht : ∀ k H, solver k H ≠ none) :
    EnergyAtLeast 1 (sumOperator zOp.terms) (-1) ∧ ∃ g, zOp.ArnoldiMethod solver 1 twoState 1 none (.ok g) ∧ g.eigenvalue = -7 := by
  have hd := energyAtMost_default (o := zOp) (n := 1) (by omega) zOp_fits zOp_real
  have hsum : (zOp.terms.map fun p => |p.coef.re|).sum = 1 := by simp [zOp_terms]
  rw [hsum] at hd
  refine ⟨hd.2, ?_⟩
  have hmu : zOp.muOr none = 1 := by
    have := usesShift_eq zOp_shift
    rw [this]; simp
  have hx := opFits_x zOp_fits
  let χ := onState (2 ^ 1) (shiftedBy (OpAct zOp.terms) 1) twoState
  have hχ : ∀ j : U64, j.toNat < 2 ^ 1 → χ j = if j = 1 then -4 else 0 := by
    intro j hj
    change (if InState (2 ^ 1) j then shiftedBy (OpAct zOp.terms) 1 twoState j else twoState j) = _
    rw [if_pos (show InState (2 ^ 1) j from hj)]
    unfold shiftedBy
    rw [← sumOperator_eq, zOp_act _ j hj]
    unfold twoState
    by_cases h : j = 1
    · subst h; rw [if_pos rfl, if_pos rfl, if_neg (by decide)]; norm_num
    · rw [if_neg h, if_neg h]; simp
  have hv : vec 1 twoState = WithLp.toLp 2 ![0, 2] := by
    ext i; fin_cases i <;> simp [twoState]
  have hvχ : vec 1 χ = WithLp.toLp 2 ![0, -4] := by
    ext i
    fin_cases i
    · exact hχ 0 (by decide)
    · exact hχ 1 (by decide)
  have hin : Inner.inner ℂ (vec 1 twoState) (vec 1 χ) = (-8 : ℂ) := by
    rw [hv, hvχ, PiLp.inner_apply]
    simp [Fin.sum_univ_two]
    rw [map_ofNat]; norm_num
  obtain ⟨w, g1, g2⟩ := gramSchmidt_spec (n := 1) (by omega) [twoState] (List.pairwise_singleton _ _) χ
  have hgs : GramSchmidt 1 [twoState] χ [-8] w := (g1 _ _).2 ⟨by simp [hin], rfl⟩
  have hw : vec 1 w = WithLp.toLp 2 ![0, 12] := by
    rw [g2, List.map_cons, List.map_nil, List.sum_cons, List.sum_nil, add_zero, hin, hv, hvχ]
    ext i; fin_cases i <;> simp; norm_num
  have hnw : Real.sqrt (normSq (2 ^ 1) w) ≠ 0 := by
    rw [normSq_vec (n := 1) (by omega), Real.sqrt_sq (norm_nonneg _), norm_ne_zero_iff, hw]
    intro h
    have h2 : (WithLp.toLp 2 ![0, 12] : Vect 1) 1 = 0 := by rw [h]; rfl
    norm_num at h2
  have hloop : zOp.ArnoldiLoop 1 (zOp.muOr none) 1 [twoState] []
      (.ok ([twoState] ++ [onState (2 ^ 1) (fun v j => v j * (1 / (Real.sqrt (normSq (2 ^ 1) w) : ℂ))) w], [[-8]])) := by
    rw [hmu]
    exact .step 0 [twoState] twoState χ w _ [-8] _ [] _ rfl ((shifts_iff (by omega) hx 1 twoState χ).2 rfl) hgs
      (squaredNorm_eq (by omega) w) hnw ((multiplyCoef_iff (by omega) _ _ _).2 rfl) (.done _ _)
  obtain ⟨⟨vals, X⟩, hsol⟩ := Option.ne_none_iff_exists'.1 (ht 1 (hessenberg [[-8]]))
  obtain ⟨d1, d2, d3⟩ := hs _ _ _ _ hsol
  obtain ⟨θ, rfl⟩ := List.length_eq_one_iff.1 d1
  obtain ⟨⟨r, hr, hne⟩, heq⟩ := d2 0 (by simp)
  obtain rfl : r = 0 := by omega
  have hθ : θ = -8 := by
    have := heq 0 (by omega)
    rw [Finset.sum_range_one] at this
    have h8 : hessenberg [[-8]] 0 0 = (-8 : ℂ) := rfl
    rw [h8] at this
    exact (mul_right_cancel₀ hne this).symm
  have hmin : minLoop (0, θ) 1 [] = 0 := rfl
  obtain ⟨g', c1, c2⟩ := combine_spec (n := 1) (by omega) [X 0 0]
    ([twoState] ++ [onState (2 ^ 1) (fun v j => v j * (1 / (Real.sqrt (normSq (2 ^ 1) w) : ℂ))) w]) (by simp)
    (onState (2 ^ 1) (fun _ _ => 0) fun _ => 0)
  have hg' := c2 (fun _ => X 0 0) (fun i hi => by simp at hi; subst hi; rfl)
  have hne' : vec 1 g' ≠ 0 := by
    rw [hg', vec_onState (by omega), vec_zero, zero_add]
    unfold combination
    rw [List.length_singleton, Finset.sum_range_one]
    have : basisVec 1 ([twoState] ++ [onState (2 ^ 1) (fun v j => v j * (1 / (Real.sqrt (normSq (2 ^ 1) w) : ℂ))) w]) 0 = vec 1 twoState := rfl
    rw [this]
    apply smul_ne_zero hne
    rw [hv]
    intro h
    have h2 : (WithLp.toLp 2 ![0, 2] : Vect 1) 1 = 0 := by rw [h]; rfl
    norm_num at h2
  refine ⟨_, .found _ _ θ [] X (fun _ => 0) _ g' _ θ (by simp [zOp_terms]) hloop hsol ((setZeroNorm_iff (by omega) _ _).2 rfl)
    ((c1 _).2 rfl) (normalizes (by omega) (fun e => hne' ((vec_eq_zero (by omega) g').2 e))) (by rw [hmin]; rfl), ?_⟩
  change θ + zOp.muOr none = -7
  rw [hθ, hmu]; norm_num

/-! ## a case that meets the hypotheses -/

/-- the state `(|0⟩ + |1⟩)/√2` -/
noncomputable def plusUnit : U64 → ℂ := fun _ => ((Real.sqrt 2)⁻¹ : ℝ)

theorem plusUnit_norm : normSq (2 ^ 1) plusUnit = 1 := by
  rw [normSq_vec (n := 1) (by omega), EuclideanSpace.norm_sq_eq]
  simp [plusUnit]

theorem plusUnit_ne (j : U64) : plusUnit j ≠ 0 := by
  unfold plusUnit
  rw [Complex.ofReal_ne_zero]
  positivity

theorem plus_independent : ¬ KrylovDependent 1 (sumOperator zOp.terms) 2 plusUnit := by
  rintro ⟨i, hi, a, h⟩
  have h0 := h 0 (by decide)
  have h1 := h 1 (by decide)
  have hp := plusUnit_ne 0
  interval_cases i
  · exact hp (by simpa [krylov] using h0)
  · rw [Function.iterate_one, zOp_act _ _ (by decide)] at h0 h1
    rw [if_pos rfl] at h0
    rw [if_neg (by decide)] at h1
    simp [krylov] at h0 h1
    have e : plusUnit 1#64 = plusUnit 0#64 := rfl
    rw [e] at h1
    have : -plusUnit 0#64 = plusUnit 0#64 := by rw [h1]; exact h0.symm
    have h2 : plusUnit 0#64 = 0 := by linear_combination (-1 / 2 : ℂ) * this
    exact hp h2

theorem plus_dependent : KrylovDependent 1 (sumOperator zOp.terms) 3 plusUnit := by
  refine ⟨2, by omega, fun i => if i = 0 then 1 else 0, fun j hj => ?_⟩
  rw [show (sumOperator zOp.terms)^[2] plusUnit = sumOperator zOp.terms (sumOperator zOp.terms plusUnit) from rfl, zOp_act _ j hj,
    zOp_act _ j hj]
  simp [krylov]
  split <;> simp

/-- two iterations on `Z₀` and `(|0⟩ + |1⟩)/√2` give the ground energy -/
example : ∃ solver : EigenSolver, SolverOK solver ∧ ∃ g, zOp.ArnoldiMethod solver 1 plusUnit 2 none (.ok g) ∧ g.eigenvalue = ((-1 : ℝ) : ℂ) := by
  obtain ⟨solver, hs, ht⟩ := solver_exists
  refine ⟨solver, hs, ?_⟩
  obtain ⟨⟨r, hr⟩, h⟩ := ((C65_result_partial zOp (n := 1) (by omega) zOp_fits hs plusUnit plusUnit_norm (k := 2) (by omega) none).1
    (by simp [zOp_terms])).1 plus_independent
  rcases h r hr with ⟨e, _, H, hH⟩ | ⟨g, rfl, _⟩
  · exact absurd hH (ht _ _)
  have hd := energyAtMost_default (o := zOp) (n := 1) (by omega) zOp_fits zOp_real
  have hsum : (zOp.terms.map fun p => |p.coef.re|).sum = 1 := by simp [zOp_terms]
  rw [hsum] at hd
  refine ⟨g, hr, (C65_exact zOp (by omega) zOp_fits (by simp [zOp_terms]) zOp_real hs plusUnit plusUnit_norm (by omega) none plus_independent
    plus_dependent hr).2.2 (-1) (basisState 1) hd.2 zOp_eigen ?_⟩
  rw [inner_vec (n := 1) (by omega), PiLp.inner_apply]
  simp [Fin.sum_univ_two, basisState]
  exact plusUnit_ne 1

end Verif.Props
