import Verif.Proofs.Arnoldi
import Verif.Proofs.PowerEnergy

/-! # The outcome of the Arnoldi method -/

namespace Verif.Proofs
open Verif Verif.Spec Verif.Model Verif.Props
attribute [-simp] BitVec.getLsbD_eq_getElem

local notation "⟪" x ", " y "⟫" => Inner.inner ℂ x y

theorem minLoop_spec (pre : List ℂ) (xs : List ℂ) (best : Nat × ℂ) (hb : pre[best.1]? = some best.2) (hmin : ∀ y ∈ pre, best.2.re ≤ y.re) :
    ∃ value, (pre ++ xs)[minLoop best pre.length xs]? = some value ∧ ∀ y ∈ pre ++ xs, value.re ≤ y.re := by
  induction xs generalizing pre best with
  | nil => exact ⟨best.2, by rw [List.append_nil]; exact hb, by rw [List.append_nil]; exact hmin⟩
  | cons x xs ih =>
    have e : pre ++ x :: xs = (pre ++ [x]) ++ xs := by simp
    have hl : (pre ++ [x]).length = pre.length + 1 := by simp
    unfold minLoop
    by_cases h : x.re < best.2.re
    · rw [if_pos h, e]
      have := ih (pre ++ [x]) (pre.length, x) (by rw [List.getElem?_append_right (le_refl _), Nat.sub_self]; rfl) (fun y hy => by
        rcases List.mem_append.1 hy with hy | hy
        · exact h.le.trans (hmin y hy)
        · rw [List.mem_singleton.1 hy])
      rwa [hl] at this
    · rw [if_neg h, e]
      have hlt : best.1 < pre.length := by
        by_contra hc
        rw [List.getElem?_eq_none (by omega)] at hb
        cases hb
      have := ih (pre ++ [x]) best (by rw [List.getElem?_append_left hlt]; exact hb) (fun y hy => by
        rcases List.mem_append.1 hy with hy | hy
        · exact hmin y hy
        · rw [List.mem_singleton.1 hy]; exact not_lt.1 h)
      rwa [hl] at this

theorem combine_spec {n : Nat} (hn : n ≤ 63) (as : List ℂ) (vs : List (U64 → ℂ)) (h : as.length ≤ vs.length) (g : U64 → ℂ) :
    ∃ g', (∀ g1, Combine n vs as g g1 ↔ g1 = g') ∧ ∀ a : Nat → ℂ, (∀ i (hi : i < as.length), as[i] = a i) →
      vec n g' = vec n g + combination (basisVec n vs) as.length a := by
  induction as generalizing vs g with
  | nil =>
    refine ⟨g, fun g1 => ⟨fun h => by cases h; rfl, fun e => by rw [e]; exact .nil vs g⟩, fun a _ => ?_⟩
    simp [combination]
  | cons c as ih =>
    obtain ⟨v, vs, rfl⟩ : ∃ v vs', vs = v :: vs' := by
      cases vs with
      | nil => simp at h
      | cons v vs' => exact ⟨v, vs', rfl⟩
    let g1 := onState (2 ^ n) (fun u j => u j + c * v j) g
    obtain ⟨g', h1, h2⟩ := ih vs (by simpa using h) g1
    refine ⟨g', fun g2 => ⟨fun h => ?_, ?_⟩, fun a ha => ?_⟩
    · cases h with
      | cons _ _ _ _ _ gm _ a1 a2 =>
        obtain rfl := (addsWithCoef_iff hn _ _ _ _).1 a1
        exact (h1 _).1 a2
    · rintro rfl
      exact .cons v vs c as g g1 g2 ((addsWithCoef_iff hn _ _ _ _).2 rfl) ((h1 _).2 rfl)
    · rw [h2 (fun i => a (i + 1)) (fun i hi => by have := ha (i + 1) (by simpa using hi); simpa using this)]
      have e0 : c = a 0 := ha 0 (by simp)
      have : vec n g1 = vec n g + c • vec n v := by rw [vec_onState hn, vec_add n g (fun j => c * v j), vec_smul]
      rw [this]
      unfold combination
      rw [List.length_cons, Finset.sum_range_succ', e0, add_assoc]
      congr 1
      rw [add_comm]
      rfl

theorem setZeroNorm_iff {n : Nat} (hn : n ≤ 63) (ψ χ : U64 → ℂ) :
    DRuns (2 ^ n) (setZeroNorm n) ψ χ ↔ χ = onState (2 ^ n) (fun _ _ => 0) ψ := by
  have h : DRuns (2 ^ n) (setZeroNorm n) ψ (onState (2 ^ n) (fun _ _ => 0) ψ) :=
    fill_runs (Nat.pow_le_pow_right (by omega) (by omega)) (fun _ => 0) ψ
  exact ⟨fun h' => DRuns.unique h' h, fun e => e ▸ h⟩

/-- what the method returns: the energy and state of a normalised Ritz vector of least energy -/
structure RitzOutcome {n : Nat} (T : Vect n →ₗ[ℂ] Vect n) (x : Vect n) (k : Nat) (g : GroundState) : Prop where
  unit : ‖vec n g.state‖ = 1
  mem : vec n g.state ∈ spanOf (powers T x) k
  energy : ⟪vec n g.state, T (vec n g.state)⟫ = g.eigenvalue
  least : T.IsSymmetric → g.eigenvalue.im = 0 ∧ ∀ y ∈ spanOf (powers T x) k, g.eigenvalue.re * ‖y‖ ^ 2 ≤ (⟪y, T y⟫).re
  exact : (∀ y ∈ spanOf (powers T x) k, T y ∈ spanOf (powers T x) k) → T (vec n g.state) = g.eigenvalue • vec n g.state
  overlap : T.IsSymmetric → (∀ y ∈ spanOf (powers T x) k, T y ∈ spanOf (powers T x) k) → ∀ (v : Vect n) (e : ℝ), T v = (e : ℂ) • v →
    x ∈ spanOf (powers T x) k → ⟪v, x⟫ ≠ 0 → g.eigenvalue.re ≤ e

theorem arnoldi_outcome {o : Op} {n : Nat} (hn : n ≤ 63) (ho : OpFits o n) (hl : o.terms ≠ []) {solver : EigenSolver}
    (hs : ∀ k H vals X, solver k H = some (vals, X) → EigenDecomposition k H vals X)
    (ψ : U64 → ℂ) (hψ : normSq (2 ^ n) ψ = 1) (k : Nat) (mu : Option ℂ) :
    ((∃ i < k + 1, powers (opLin n o.terms) (vec n ψ) i ∈ spanOf (powers (opLin n o.terms) (vec n ψ)) i) →
      ∀ r, o.ArnoldiMethod solver n ψ (k + 1) mu r ↔ r = .error (.ub "division by zero")) ∧
    ((∀ i < k + 1, powers (opLin n o.terms) (vec n ψ) i ∉ spanOf (powers (opLin n o.terms) (vec n ψ)) i) →
      (∃ r, o.ArnoldiMethod solver n ψ (k + 1) mu r) ∧
      (∀ r, o.ArnoldiMethod solver n ψ (k + 1) mu r →
        (∃ e, r = .error (.throw e) ∧ ∃ H, solver (k + 1) H = none) ∨
        ∃ g, r = .ok g ∧ RitzOutcome (opLin n o.terms) (vec n ψ) (k + 1) g) ∧ k + 1 ≤ 2 ^ n) := by
  have hx := opFits_x ho
  set T := opLin n o.terms with hT
  set x := vec n ψ with hxdef
  have hx1 : ‖x‖ ^ 2 = 1 := by rw [← normSq_vec hn, hψ]
  have hll : o.terms.length ≠ 0 := by rwa [ne_eq, List.length_eq_zero_iff]
  have hb0 : basisVec n [ψ] 0 = x := rfl
  have hinv : ArnoldiInv T (o.muOr mu) x (basisVec n [ψ]) (hessenberg []) [ψ].length := by
    refine ⟨le_refl 1, ?_, ?_, ?_, ?_⟩
    · intro i hi j hj
      obtain rfl : i = 0 := by simpa using hi
      obtain rfl : j = 0 := by simpa using hj
      rw [if_pos rfl, hb0, inner_self_eq_norm_sq_to_K]
      have := congrArg (fun r : ℝ => (r : ℂ)) hx1
      simpa using this
    · apply spanOf_congr
      intro i hi
      obtain rfl : i = 0 := by simpa using hi
      rfl
    · intro i hi; simp at hi
    · intro i hi; simp at hi
  obtain ⟨l1, l2⟩ := arnoldiLoop_spec hn hx (o.muOr mu) x k [ψ] [] rfl hinv
  rw [show [ψ].length + k = k + 1 by simp; omega] at l1 l2
  simp only [List.length_singleton] at l1 l2
  constructor
  · rintro ⟨i, hi, hm⟩ r
    have hi1 : 1 ≤ i := by
      rcases Nat.eq_zero_or_pos i with rfl | h
      · exfalso
        obtain ⟨a, ha⟩ := mem_spanOf.1 hm
        rw [Finset.sum_range_zero] at ha
        have : x = 0 := ha.symm
        rw [this, norm_zero] at hx1
        norm_num at hx1
      · exact h
    have hloop := l1 ⟨i, hi1, hi, hm⟩
    constructor
    · intro h
      cases h with
      | noTerms h => exact absurd h hll
      | nan e _ h => have := (hloop _).1 h; cases this; rfl
      | noConvergence vs cols _ h => have := (hloop _).1 h; cases this
      | noEigenvalue vs cols X _ h => have := (hloop _).1 h; cases this
      | found vs cols θ θs X junk g0 g1 g v _ h => have := (hloop _).1 h; cases this
      | zeroVector vs cols θ θs X junk g0 g1 e _ h => have := (hloop _).1 h; cases this
    · rintro rfl
      exact .nan _ hll ((hloop _).2 rfl)
  · intro hind
    obtain ⟨vs, cols, hloop, hcomp, hspan, hlen⟩ := l2 (fun i _ h2 => hind i h2)
    refine ⟨?_, ?_, ?_⟩
    rotate_left 2
    · have := ortho_card hcomp.ortho
      simpa using this
    -- what happens after the solver has returned
    all_goals
      have after : ∀ (θ : ℂ) (θs : List ℂ) (X : Nat → Nat → ℂ), solver (k + 1) (hessenberg cols) = some (θ :: θs, X) →
          ∃ value, (θ :: θs)[minLoop (0, θ) 1 θs]? = some value ∧ (∀ y ∈ θ :: θs, value.re ≤ y.re) ∧
          (∃ r < k + 1, X r (minLoop (0, θ) 1 θs) ≠ 0) ∧
          (∀ r < k + 1, ∑ i ∈ Finset.range (k + 1), hessenberg cols r i * X i (minLoop (0, θ) 1 θs) = value * X r (minLoop (0, θ) 1 θs)) ∧
          ∀ junk, ∃ g1, (∀ g0, DRuns (2 ^ n) (setZeroNorm n) junk g0 → ∀ g', Combine n vs ((List.range (k + 1)).map fun i => X i (minLoop (0, θ) 1 θs)) g0 g' ↔ g' = g1) ∧
            vec n g1 = combination (basisVec n vs) (k + 1) (fun i => X i (minLoop (0, θ) 1 θs)) ∧ vec n g1 ≠ 0 := by
        intro θ θs X hsol
        obtain ⟨d1, d2, d3⟩ := hs _ _ _ _ hsol
        obtain ⟨value, v1, v2⟩ := minLoop_spec [θ] θs (0, θ) rfl (by simp)
        set c := minLoop (0, θ) 1 θs with hc
        have hcl : c < (θ :: θs).length := by
          by_contra hcon
          have : ([θ] ++ θs)[minLoop (0, θ) [θ].length θs]? = none := List.getElem?_eq_none (by simpa [hc] using hcon)
          rw [this] at v1; cases v1
        have hval : (θ :: θs)[c] = value := by
          have h1 : (θ :: θs)[c]? = some value := v1
          rw [List.getElem?_eq_getElem hcl] at h1
          exact Option.some.inj h1
        obtain ⟨q1, q2⟩ := d2 c hcl
        refine ⟨value, v1, v2, q1, fun r hr => by rw [q2 r hr, hval], fun junk => ?_⟩
        obtain ⟨g1, c1, c2⟩ := combine_spec hn ((List.range (k + 1)).map fun i => X i c) vs (by simpa using hlen)
          (onState (2 ^ n) (fun _ _ => 0) junk)
        have e := c2 (fun i => X i c) (fun i hi => by simp)
        have hz : vec n (onState (2 ^ n) (fun _ _ => (0 : ℂ)) junk) = 0 := by rw [vec_onState hn, vec_zero]
        rw [hz, zero_add, List.length_map, List.length_range] at e
        refine ⟨g1, fun g0 h0 g' => ?_, e, ?_⟩
        · obtain rfl := (setZeroNorm_iff hn _ _).1 h0
          exact c1 g'
        · intro h0
          rw [h0] at e
          have := combination_normSq hcomp.ortho (fun i => X i c)
          rw [← e, norm_zero] at this
          obtain ⟨r, hr, hne⟩ := q1
          have hpos : 0 < ∑ i ∈ Finset.range (k + 1), Complex.normSq (X i c) :=
            Finset.sum_pos' (fun i _ => Complex.normSq_nonneg _) ⟨r, Finset.mem_range.2 hr, Complex.normSq_pos.2 hne⟩
          rw [← this] at hpos
          norm_num at hpos
    · cases hsol : solver (k + 1) (hessenberg cols) with
      | none => exact ⟨_, .noConvergence vs cols hll ((hloop _).2 rfl) hsol⟩
      | some p =>
        obtain ⟨vals, X⟩ := p
        cases vals with
        | nil => exact ⟨_, .noEigenvalue vs cols X hll ((hloop _).2 rfl) hsol⟩
        | cons θ θs =>
          obtain ⟨value, a1, a2, a3, a4, a5⟩ := after θ θs X hsol
          obtain ⟨g1, b1, b2, b3⟩ := a5 (fun _ => 0)
          have hz := (setZeroNorm_iff hn (fun _ => (0 : ℂ)) _).2 rfl
          exact ⟨_, .found vs cols θ θs X _ _ g1 _ value hll ((hloop _).2 rfl) hsol hz ((b1 _ hz _).2 rfl)
            (normalizes hn (fun e => b3 ((vec_eq_zero hn g1).2 e))) a1⟩
    · intro r hr
      cases hr with
      | noTerms h => exact absurd h hll
      | nan e _ h => have := (hloop _).1 h; cases this
      | noConvergence vs' cols' _ h hsol =>
        exact Or.inl ⟨_, rfl, _, hsol⟩
      | noEigenvalue vs' cols' X _ h hsol =>
        have := (hs _ _ _ _ hsol).1
        simp at this
      | zeroVector vs' cols' θ θs X junk g0 g1' e _ h hsol h0 hcomb hnan =>
        exfalso
        have := (hloop _).1 h; cases this
        obtain ⟨value, a1, a2, a3, a4, a5⟩ := after θ θs X hsol
        obtain ⟨g1, b1, b2, b3⟩ := a5 junk
        obtain rfl := (b1 _ h0 _).1 hcomb
        obtain ⟨d, hd, _⟩ := normalizes hn (fun e => b3 ((vec_eq_zero hn g1').2 e))
        rw [hd] at hnan; cases hnan
      | found vs' cols' θ θs X junk g0 g1' g v _ h hsol h0 hcomb hnorm hv =>
        have := (hloop _).1 h; cases this
        obtain ⟨value, a1, a2, a3, a4, a5⟩ := after θ θs X hsol
        obtain ⟨g1, b1, b2, b3⟩ := a5 junk
        obtain rfl := (b1 _ h0 _).1 hcomb
        rw [a1] at hv; cases hv
        refine Or.inr ⟨_, rfl, ?_⟩
        set a : Nat → ℂ := fun i => X i (minLoop (0, θ) 1 θs) with ha
        set y := combination (basisVec n vs) (k + 1) a with hy
        have hvg : vec n g = ((‖y‖⁻¹ : ℝ) : ℂ) • y := by rw [vec_normalizes hn b3 hnorm, b2]
        have hy0 : y ≠ 0 := by rw [← b2]; exact b3
        have hyn : ‖y‖ ≠ 0 := norm_ne_zero_iff.2 hy0
        have hymem : y ∈ spanOf (basisVec n vs) (k + 1) := mem_spanOf.2 ⟨a, rfl⟩
        have hen := ritz_energy hcomp a4
        rw [← hy] at hen
        have hgen : ⟪vec n g, T (vec n g)⟫ = v + o.muOr mu := by
          rw [hvg, map_smul, _root_.inner_smul_left, _root_.inner_smul_right, hen, Complex.conj_ofReal]
          have : (‖y‖ : ℂ) ≠ 0 := by exact_mod_cast hyn
          push_cast
          field_simp
        have hreal : T.IsSymmetric → (v + o.muOr mu).im = 0 := by
          intro hsym
          rw [← hgen]
          apply Complex.conj_eq_iff_im.1
          rw [inner_conj_symm, hsym]
        have hleast : T.IsSymmetric → ∀ b : Nat → ℂ, (v + o.muOr mu).re * ‖combination (basisVec n vs) (k + 1) b‖ ^ 2 ≤
            (⟪combination (basisVec n vs) (k + 1) b, T (combination (basisVec n vs) (k + 1) b)⟫).re := by
          intro hsym b
          refine ritz_min hcomp hsym (fun e b hb hbe => ?_) b
          have := a2 e ((hs _ _ _ _ hsol).2.2 e b hb hbe)
          rw [Complex.add_re, Complex.add_re]
          linarith
        refine ⟨?_, ?_, hgen, fun hsym => ⟨hreal hsym, ?_⟩, ?_, ?_⟩
        · rw [hvg, norm_smul, Complex.norm_real, norm_inv, norm_norm, inv_mul_cancel₀ hyn]
        · rw [← hspan, hvg]
          exact Submodule.smul_mem _ _ hymem
        · intro z hz
          rw [← hspan] at hz
          obtain ⟨b, rfl⟩ := mem_spanOf.1 hz
          exact hleast hsym b
        · intro hinvt
          rw [← hspan] at hinvt
          have := ritz_exact hcomp hinvt a4
          rw [← hy] at this
          rw [hvg, map_smul, this, smul_comm]
        · intro hsym hinvt u e hu hxm hov
          rw [← hspan] at hinvt hxm
          obtain ⟨b, hb0, hbe⟩ := ritz_overlap hcomp hsym hinvt hu hxm hov
          have := hleast hsym b
          rw [hbe, Complex.re_ofReal_mul, Complex.ofReal_re] at this
          have hp : 0 < ‖combination (basisVec n vs) (k + 1) b‖ ^ 2 := by have := norm_pos_iff.2 hb0; positivity
          exact le_of_mul_le_mul_right this hp

end Verif.Proofs
