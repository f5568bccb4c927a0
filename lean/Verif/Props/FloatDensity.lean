import Verif.Proofs.FloatDensityGate
import Verif.Proofs.FloatDensityExact
import Verif.Props.Density
import Verif.Props.Rounding

/-! # C95: gates on density matrices in floating-point arithmetic

`UGate.updateDMF` (`Model/FloatDensity.lean`) is the update of a density matrix whose elements are pairs of numbers of a type
`F` with any operations.  The specification is the product `U ρ U†` (`conjugatedBy`) with the operator `operatorOf d`, and the
Frobenius norm.
-/

namespace Verif.Props
open Verif Verif.Spec Verif.Model Verif.Proofs
open scoped ComplexConjugate
attribute [-simp] BitVec.getLsbD_eq_getElem

/-- the exact effect of a sequence of gates on a density matrix: `U_k … U_1 ρ U_1† … U_k†` -/
noncomputable def exactDensity (dim : Nat) (ds : List GateDesc) (ρ : U64 × U64 → ℂ) : U64 × U64 → ℂ :=
  ds.foldl (fun ρ d => conjugatedBy dim (operatorOf d) ρ) ρ

section
variable {F : Type} [_root_.Zero F] [One F] [Add F] [Sub F] [Mul F] [Neg F] {lib : FloatLib F} {val : F → ℝ} {u w η Ω ε : ℝ}

/-- The conditions on a gate: a class with a density-matrix kernel, and angles at most 32 and small enough for `cos` and `sin`
to be computed to `ε`. -/
structure BoundedDM (u w η ε : ℝ) (n : Nat) (d : GateDesc) : Prop where
  standard : StandardDesc d
  angle : ∀ a ∈ angles d, |a| ≤ 32 ∧ (u + η) * (1 + |a|) + w ≤ ε
  qubits : ∀ q ∈ qubitsOf d, q < n

theorem standard_covered {d : GateDesc} (h : StandardDesc d) : Covered d := by
  cases d <;> first | trivial | exact h.elim

/-! ## conjugation with an operator that does not enlarge vectors -/

theorem frob_conj (n : Nat) (M : U64 × U64 → ℂ) : frob (2 ^ n) (fun p => conj (M p)) = frob (2 ^ n) M := by
  unfold frob
  simp only [RCLike.norm_conj]

theorem frob_onMatrix {n : Nat} (hn : n ≤ 63) {G : (U64 → ℂ) → U64 → ℂ} (hG : ∀ ψ, normSq (2 ^ n) (G ψ) ≤ normSq (2 ^ n) ψ)
    (ρ : U64 × U64 → ℂ) : frob (2 ^ n) (onMatrix (2 ^ n) G ρ) ≤ frob (2 ^ n) ρ := by
  have h1 := frob_cols_le hn hG ρ
  rw [← frob_conj] at h1
  have h2 := frob_rows_le hn hG fun p : U64 × U64 => conj (G (fun r => ρ (r, p.2)) p.1)
  rw [← frob_conj] at h2
  refine le_trans (le_of_eq (frob_congr hn fun p hp => ?_)) (h2.trans h1)
  unfold onMatrix
  rw [if_pos (show p.1.toNat < 2 ^ n ∧ p.2.toNat < 2 ^ n from hp)]

theorem conjugatedBy_sub (dim : Nat) (G : (U64 → ℂ) → U64 → ℂ) (ρ σ : U64 × U64 → ℂ) (p : U64 × U64) :
    conjugatedBy dim G (fun p => ρ p - σ p) p = conjugatedBy dim G ρ p - conjugatedBy dim G σ p := by
  unfold conjugatedBy
  rw [← Finset.sum_sub_distrib]
  refine Finset.sum_congr rfl fun r _ => ?_
  rw [← Finset.sum_sub_distrib]
  exact Finset.sum_congr rfl fun c _ => by ring

/-- the facts about the operator of a built gate -/
theorem standard_facts {n : Nat} (hn : n < 32) {d : GateDesc} {g : UGate} (hs : StandardDesc d) (hb : d.build = .ok g)
    (hq : ∀ q ∈ qubitsOf d, q < n) : Valid g ∧ StandardGate g ∧ opOf g = operatorOf d ∧ (∀ q ∈ UGate.ts g, q < n) ∧
      (∀ p ∈ UGate.cs g, p.1 < n) ∧ ∀ ρ, frob (2 ^ n) (conjugatedBy (2 ^ n) (operatorOf d) ρ) ≤ frob (2 ^ n) ρ := by
  obtain ⟨hv, ho, hsame⟩ := build_valid (standardDesc_ok hs) hb
  obtain ⟨ht, hc⟩ := build_bounds hsame hq
  have hsg := (standard_build hb).1 hs
  refine ⟨hv, hsg, ho, ht, hc, fun ρ => ?_⟩
  rw [← ho, ← frob_congr (by omega) fun p hp => conjugatedBy_eq (by omega) ht ρ hp]
  exact frob_onMatrix (by omega) (standard_con hv hsg hn ht) ρ

/-! ## C95 -/

/-- **C95, one gate.** In floating-point arithmetic the update of a density matrix by any gate with a density-matrix kernel has,
under every schedule, one outcome, and it differs from `U ρ U†` by at most `8192 (ε |ρ| + η dim)` in the Frobenius norm. -/
theorem C95_gate (A : Accurate lib val u w η Ω) (hε : u + η + w ≤ ε) {n : Nat} (hn : n < 32) (hsm : 8192 * (2 * ε + η * 2 ^ n) ≤ 1)
    {d : GateDesc} {g : UGate} (hd : BoundedDM u w η ε n d) (h : d.build = .ok g) :
    ∃ ls : List (MLaunch (Cx F)), g.updateDMF lib n = .ok ls ∧ ∀ M : U64 × U64 → Cx F, frob (2 ^ n) (fun p => cval val (M p)) ≤ 2 →
      ∃ M', MRuns (2 ^ n) ls M M' ∧ (∀ M'', MRuns (2 ^ n) ls M M'' → M'' = M') ∧
        frob (2 ^ n) (fun p => cval val (M' p) - conjugatedBy (2 ^ n) (operatorOf d) (fun p => cval val (M p)) p) ≤
          8192 * (ε * frob (2 ^ n) (fun p => cval val (M p)) + η * 2 ^ n) := by
  obtain ⟨hv, hsg, ho, ht, hc, -⟩ := standard_facts hn hd.standard h hd.qubits
  have ha := (build_coefs (standard_covered hd.standard) (standardDesc_ok hd.standard) h).2.1
  obtain ⟨l, hl, hcl⟩ := updateDMF_close ⟨A, hε, hsm, hn⟩ hv hsg (by rw [ha]; exact hd.angle) ht hc
  refine ⟨l, hl, fun M hM => ?_⟩
  obtain ⟨M', hr, hb⟩ := hcl M hM
  refine ⟨M', hr, fun M'' h' => MRuns.unique h' hr, ?_⟩
  rw [← ho, ← frob_congr (M := fun p => cval val (M' p) - onMatrix (2 ^ n) (opOf g) (fun p => cval val (M p)) p) (by omega)
    fun p hp => by rw [conjugatedBy_eq (by omega) ht _ hp]]
  exact hb

theorem gatesRunDMF_unique {n : Nat} {gs : List UGate} {M M₁ M₂ : U64 × U64 → Cx F}
    (h₁ : GatesRunDMF lib n gs M M₁) (h₂ : GatesRunDMF lib n gs M M₂) : M₁ = M₂ := by
  induction gs generalizing M with
  | nil => rw [h₁, h₂]
  | cons g gs ih =>
    obtain ⟨d, a, hd, hr, h⟩ := h₁
    obtain ⟨d', a', hd', hr', h'⟩ := h₂
    rw [hd] at hd'
    injection hd' with hd'
    subst hd'
    obtain rfl := MRuns.unique hr hr'
    exact ih h h'

/-- the error after some gates, for a matrix already within `e` of the exact one -/
theorem sequence_close (A : Accurate lib val u w η Ω) (hε : u + η + w ≤ ε) {n : Nat} (hn : n < 32) {E : ℝ}
    (hE : E = 8192 * (2 * ε + η * 2 ^ n)) {ds : List GateDesc} {gs : List UGate}
    (hb : List.Forall₂ (fun d g => GateDesc.build d = .ok g) ds gs) (hd : ∀ d ∈ ds, BoundedDM u w η ε n d) {e : ℝ} (he : 0 ≤ e)
    (hk : e + ds.length * E ≤ 1) (M : U64 × U64 → Cx F) (ρ : U64 × U64 → ℂ) (hρ : frob (2 ^ n) ρ ≤ 1)
    (hM : frob (2 ^ n) (fun p => cval val (M p) - ρ p) ≤ e) :
    ∃ M', GatesRunDMF lib n gs M M' ∧ frob (2 ^ n) (fun p => cval val (M' p) - exactDensity (2 ^ n) ds ρ p) ≤ e + ds.length * E := by
  have hη0 := A.eta_nonneg
  have hε0 : 0 ≤ ε := by linarith [A.u_nonneg, A.w_nonneg]
  have hE0 : 0 ≤ E := by rw [hE]; positivity
  induction hb generalizing e M ρ with
  | nil => exact ⟨M, rfl, by simpa [exactDensity] using hM⟩
  | @cons d g ds gs hg hgs ih =>
    have hlen : ((d :: ds).length : ℝ) = ds.length + 1 := by simp
    have hdn : 0 ≤ ds.length * E := by positivity
    rw [hlen] at hk ⊢
    have hd1 := hd d List.mem_cons_self
    have hE1 : E ≤ 1 := by nlinarith
    obtain ⟨-, -, -, -, -, hcon⟩ := standard_facts hn hd1.standard hg hd1.qubits
    obtain ⟨l, hl, hrun⟩ := C95_gate A hε hn (by rw [← hE]; exact hE1) hd1 hg
    have hM2 : frob (2 ^ n) (fun p => cval val (M p)) ≤ 2 := by
      have := frob_add n (fun p => cval val (M p) - ρ p) ρ
      simp only [sub_add_cancel] at this
      nlinarith
    obtain ⟨M₁, hr, -, hc⟩ := hrun M hM2
    have hstep : 8192 * (ε * frob (2 ^ n) (fun p => cval val (M p)) + η * 2 ^ n) ≤ E := by
      rw [hE]; nlinarith
    have hM₁ : frob (2 ^ n) (fun p => cval val (M₁ p) - conjugatedBy (2 ^ n) (operatorOf d) ρ p) ≤ e + E := by
      have h1 := frob_add n (fun p => cval val (M₁ p) - conjugatedBy (2 ^ n) (operatorOf d) (fun p => cval val (M p)) p)
        (fun p => conjugatedBy (2 ^ n) (operatorOf d) (fun p => cval val (M p) - ρ p) p)
      simp only [conjugatedBy_sub, sub_add_sub_cancel] at h1
      have h2 := hcon (fun p => cval val (M p) - ρ p)
      have h3 : frob (2 ^ n) (conjugatedBy (2 ^ n) (operatorOf d) (fun p => cval val (M p) - ρ p)) =
          frob (2 ^ n) (fun p => conjugatedBy (2 ^ n) (operatorOf d) (fun p => cval val (M p)) p - conjugatedBy (2 ^ n) (operatorOf d) ρ p) := by
        congr 1; funext p; exact conjugatedBy_sub _ _ _ _ p
      linarith
    obtain ⟨M', hr', hc'⟩ := ih (fun d h => hd d (List.mem_cons_of_mem _ h)) (e := e + E) (by linarith) (by linarith) M₁ _
      ((hcon ρ).trans hρ) hM₁
    refine ⟨M', ⟨l, M₁, hl, hr, hr'⟩, ?_⟩
    refine hc'.trans ?_
    linarith

/-- **C95, sequences of gates.** The error of `k` gates on a density matrix of Frobenius norm at most one is at most `k E` with
`E = 8192 (2 ε + η dim)`, as long as `k E ≤ 1`, and there is one outcome. -/
theorem C95_sequence (A : Accurate lib val u w η Ω) (hε : u + η + w ≤ ε) {n : Nat} (hn : n < 32) {E : ℝ}
    (hE : E = 8192 * (2 * ε + η * 2 ^ n)) {ds : List GateDesc} {gs : List UGate}
    (hb : List.Forall₂ (fun d g => GateDesc.build d = .ok g) ds gs) (hd : ∀ d ∈ ds, BoundedDM u w η ε n d)
    (hk : ds.length * E ≤ 1) (M : U64 × U64 → Cx F) (hM : frob (2 ^ n) (fun p => cval val (M p)) ≤ 1) :
    ∃ M', GatesRunDMF lib n gs M M' ∧ (∀ M'', GatesRunDMF lib n gs M M'' → M'' = M') ∧
      frob (2 ^ n) (fun p => cval val (M' p) - exactDensity (2 ^ n) ds (fun p => cval val (M p)) p) ≤ ds.length * E := by
  obtain ⟨M', h1, h2⟩ := sequence_close A hε hn hE hb hd le_rfl (by rw [zero_add]; exact hk) M (fun p => cval val (M p)) hM
    (by simp [frob])
  rw [zero_add] at h2
  exact ⟨M', h1, fun M'' h => gatesRunDMF_unique h h1, h2⟩

/-- **C95, elements.** Every element of the final matrix is within `k E` of the exact one. -/
theorem C95_elements (A : Accurate lib val u w η Ω) (hε : u + η + w ≤ ε) {n : Nat} (hn : n < 32) {E : ℝ}
    (hE : E = 8192 * (2 * ε + η * 2 ^ n)) {ds : List GateDesc} {gs : List UGate}
    (hb : List.Forall₂ (fun d g => GateDesc.build d = .ok g) ds gs) (hd : ∀ d ∈ ds, BoundedDM u w η ε n d)
    (hk : ds.length * E ≤ 1) {M M' : U64 × U64 → Cx F} (hM : frob (2 ^ n) (fun p => cval val (M p)) ≤ 1)
    (h : GatesRunDMF lib n gs M M') {p : U64 × U64} (hp : CellOf n p) :
    ‖cval val (M' p) - exactDensity (2 ^ n) ds (fun p => cval val (M p)) p‖ ≤ ds.length * E := by
  obtain ⟨M₁, -, h2, h3⟩ := C95_sequence A hε hn hE hb hd hk M hM
  rw [h2 M' h]
  exact (cell_le_frob (pow64 (by omega))
    (fun p => cval val (M₁ p) - exactDensity (2 ^ n) ds (fun p => cval val (M p)) p) hp).trans h3

theorem exactDensity_hermitian {n : Nat} (hn : n < 32) {ds : List GateDesc} {gs : List UGate}
    (hb : List.Forall₂ (fun d g => GateDesc.build d = .ok g) ds gs) (hd : ∀ d ∈ ds, StandardDesc d ∧ ∀ q ∈ qubitsOf d, q < n)
    {ρ : U64 × U64 → ℂ} (h : HermitianOn (2 ^ n) ρ) : HermitianOn (2 ^ n) (exactDensity (2 ^ n) ds ρ) := by
  induction hb generalizing ρ with
  | nil => exact h
  | @cons d g ds gs hg hgs ih =>
    obtain ⟨hs, hq⟩ := hd d List.mem_cons_self
    obtain ⟨hv, -, ho, ht, -, -⟩ := standard_facts hn hs hg hq
    refine ih (fun d h => hd d (List.mem_cons_of_mem _ h)) fun i j hi hj => ?_
    dsimp only
    rw [← ho, ← conjugatedBy_eq (by omega) ht ρ ⟨hi, hj⟩, ← conjugatedBy_eq (by omega) ht ρ ⟨hj, hi⟩]
    exact onMatrix_hermitian (by omega) (valid_targetsOK g).lt ht _ h i j hi hj

/-- **C95, Hermiticity.** A Hermitian matrix stays Hermitian up to `2 k E` in every element. -/
theorem C95_hermitian (A : Accurate lib val u w η Ω) (hε : u + η + w ≤ ε) {n : Nat} (hn : n < 32) {E : ℝ}
    (hE : E = 8192 * (2 * ε + η * 2 ^ n)) {ds : List GateDesc} {gs : List UGate}
    (hb : List.Forall₂ (fun d g => GateDesc.build d = .ok g) ds gs) (hd : ∀ d ∈ ds, BoundedDM u w η ε n d)
    (hk : ds.length * E ≤ 1) {M M' : U64 × U64 → Cx F} (hM : frob (2 ^ n) (fun p => cval val (M p)) ≤ 1)
    (hh : HermitianOn (2 ^ n) fun p => cval val (M p)) (h : GatesRunDMF lib n gs M M') {i j : U64} (hi : i.toNat < 2 ^ n)
    (hj : j.toNat < 2 ^ n) : ‖cval val (M' (i, j)) - conj (cval val (M' (j, i)))‖ ≤ 2 * (ds.length * E) := by
  have h1 := C95_elements A hε hn hE hb hd hk hM h (p := (i, j)) ⟨hi, hj⟩
  have h2 := C95_elements A hε hn hE hb hd hk hM h (p := (j, i)) ⟨hj, hi⟩
  have h3 := exactDensity_hermitian hn hb (fun d h => ⟨(hd d h).standard, (hd d h).qubits⟩) hh i j hi hj
  rw [← RCLike.norm_conj, map_sub, ← h3] at h2
  have e : cval val (M' (i, j)) - conj (cval val (M' (j, i))) =
      (cval val (M' (i, j)) - exactDensity (2 ^ n) ds (fun p => cval val (M p)) (i, j)) -
        (conj (cval val (M' (j, i))) - exactDensity (2 ^ n) ds (fun p => cval val (M p)) (i, j)) := by ring
  rw [e]
  refine (norm_sub_le _ _).trans ?_
  linarith

theorem exactDensity_trace {n : Nat} (hn : n < 32) {ds : List GateDesc} {gs : List UGate}
    (hb : List.Forall₂ (fun d g => GateDesc.build d = .ok g) ds gs)
    (hd : ∀ d ∈ ds, StandardDesc d ∧ UnitaryDesc d ∧ ∀ q ∈ qubitsOf d, q < n) (ρ : U64 × U64 → ℂ) :
    traceOf (2 ^ n) (exactDensity (2 ^ n) ds ρ) = traceOf (2 ^ n) ρ := by
  induction hb generalizing ρ with
  | nil => rfl
  | @cons d g ds gs hg hgs ih =>
    obtain ⟨hs, hu, hq⟩ := hd d List.mem_cons_self
    obtain ⟨hv, -, ho, ht, -, -⟩ := standard_facts hn hs hg hq
    refine (ih (fun d h => hd d (List.mem_cons_of_mem _ h)) _).trans ?_
    rw [← onMatrix_trace (by omega) (valid_targetsOK g) (valid_ctrlDisj hv) ht
      (fun _ _ hr hc => unitary_valid hv (unitaryHyp_of (standardDesc_ok hs) hg hu) hr hc) ρ]
    dsimp only
    rw [← ho]
    rw [traceOf_indices (by omega), traceOf_indices (by omega)]
    refine Finset.sum_congr rfl fun i hi => ?_
    have hi := (mem_indices (pow64 (by omega))).1 hi
    exact (conjugatedBy_eq (by omega) ht ρ (p := (i, i)) ⟨hi, hi⟩).symm

theorem trace_le_frob {n : Nat} (hn : n ≤ 63) (M : U64 × U64 → ℂ) : ‖traceOf (2 ^ n) M‖ ≤ √(2 ^ n) * frob (2 ^ n) M := by
  rw [traceOf_indices (by omega)]
  refine (norm_sum_le _ _).trans ?_
  refine abs_le_of_sq_le_sq' ?_ (mul_nonneg (Real.sqrt_nonneg _) (frob_nonneg _ _)) |>.2
  have hcard : ((indices (2 ^ n)).card : ℝ) = 2 ^ n := by
    have := range_indices (pow64 hn) fun _ => 1
    simp only [Finset.sum_const, Finset.card_range, nsmul_eq_mul, mul_one] at this
    rw [← this]; push_cast; rfl
  have h1 := sq_sum_le_card_mul_sum_sq (s := indices (2 ^ n)) (f := fun i => ‖M (i, i)‖)
  refine h1.trans ?_
  rw [mul_pow, Real.sq_sqrt (by positivity), hcard, frob_sq (pow64 hn)]
  refine mul_le_mul_of_nonneg_left (Finset.sum_le_sum fun i hi => ?_) (by positivity)
  exact Finset.single_le_sum (f := fun c => ‖M (i, c)‖ ^ 2) (fun _ _ => by positivity) hi

/-- **C95, trace.** Unitary gates keep the trace up to `√dim k E`. -/
theorem C95_trace (A : Accurate lib val u w η Ω) (hε : u + η + w ≤ ε) {n : Nat} (hn : n < 32) {E : ℝ}
    (hE : E = 8192 * (2 * ε + η * 2 ^ n)) {ds : List GateDesc} {gs : List UGate}
    (hb : List.Forall₂ (fun d g => GateDesc.build d = .ok g) ds gs) (hd : ∀ d ∈ ds, BoundedDM u w η ε n d)
    (hu : ∀ d ∈ ds, UnitaryDesc d) (hk : ds.length * E ≤ 1) {M M' : U64 × U64 → Cx F}
    (hM : frob (2 ^ n) (fun p => cval val (M p)) ≤ 1) (h : GatesRunDMF lib n gs M M') :
    ‖traceOf (2 ^ n) (fun p => cval val (M' p)) - traceOf (2 ^ n) (fun p => cval val (M p))‖ ≤ √(2 ^ n) * (ds.length * E) := by
  rw [← exactDensity_trace hn hb (fun d h => ⟨(hd d h).standard, hu d h, (hd d h).qubits⟩) fun p => cval val (M p)]
  obtain ⟨M₁, -, h2, h3⟩ := C95_sequence A hε hn hE hb hd hk M hM
  rw [h2 M' h]
  have e : traceOf (2 ^ n) (fun p => cval val (M₁ p)) - traceOf (2 ^ n) (exactDensity (2 ^ n) ds fun p => cval val (M p)) =
      traceOf (2 ^ n) (fun p => cval val (M₁ p) - exactDensity (2 ^ n) ds (fun p => cval val (M p)) p) := by
    unfold traceOf
    rw [← Finset.sum_sub_distrib]
  rw [e]
  exact (trace_le_frob (by omega) _).trans (mul_le_mul_of_nonneg_left h3 (Real.sqrt_nonneg _))

/-- **C95, calls that throw.** In every arithmetic the gates of the other classes, and gates on a qubit outside the register,
throw. -/
theorem C95_throws {d : GateDesc} (hd : DescOK d) {g : UGate} (hb : d.build = .ok g) {n : Nat} (hn : n < 64)
    (h : ¬ (StandardDesc d ∧ ∀ q ∈ qubitsOf d, q < n)) (lib : FloatLib F) :
    ∃ s, (g.updateDMF lib n : Res (List (MLaunch (Cx F)))) = .error (.throw s) := by
  obtain ⟨⟨s, hs⟩, -⟩ := C50_throws (d := ⟨n, false, 0⟩) hd hb hn h
  simp only [DMOp.exec] at hs
  have key : ∀ {o : Operands} {α β : Type} {x : α} {f : α → β}, (do checkWithinBounds o n; pure x : Res α) >>= (fun a => pure (f a)) = .error (.throw s) →
      ∀ {γ : Type} (y : γ), ∃ s, (do checkWithinBounds o n; pure y : Res γ) = .error (.throw s) := by
    intro o α β x f h γ y
    cases hc : checkWithinBounds o n with
    | ok _ => rw [hc] at h; cases h
    | error e => rw [hc] at h; cases h; exact ⟨s, rfl⟩
  cases g with
  | ident => cases hs
  | globalPhase phase o => exact key hs _
  | one k o => exact key hs _
  | swap o => exact key hs _
  | ecr g => exact key hs _
  | _ => exact ⟨_, rfl⟩

end

/-- **C95, exact arithmetic.** With the exact operations and library functions the floating-point model is the exact model of
C50. -/
theorem C95_exact (n : Nat) (g : UGate) : (g.updateDMF exactLib n : Res (List (MLaunch ℂ))) = g.updateDM n := updateDMF_exact n g

/-! ## examples: a circuit in the arithmetic of 53-bit significands -/

theorem sampleGates_dm : ∀ d ∈ sampleGates, BoundedDM (2⁻¹ ^ 53) (2⁻¹ ^ 53) 0 (2⁻¹ ^ 50) 2 d := by
  intro d hd
  have h := sampleGates_facts d hd
  refine ⟨?_, h.1.angle, h.2.2.2⟩
  simp only [sampleGates, List.mem_cons, List.not_mem_nil, or_false] at hd
  rcases hd with rfl | rfl | rfl <;> trivial

/-- the density matrix of the basis state 0 -/
def groundMatrix : U64 × U64 → Cx Bin := fun p => if p = (0, 0) then ⟨1, 0⟩ else ⟨0, 0⟩

theorem groundMatrix_val : (fun p => cval Bin.val (groundMatrix p)) = fun p => if p = (0, 0) then 1 else 0 := by
  funext p
  unfold groundMatrix
  split <;> simp [cval, Bin.val_zero, Bin.val_one, Complex.ext_iff]

theorem groundMatrix_frob : frob (2 ^ 2) (fun p => cval Bin.val (groundMatrix p)) = 1 := by
  rw [groundMatrix_val]
  simp [frob, Finset.sum_range_succ]

/-- The sample circuit on the ground state: every element of the result is within `2⁻³⁴` of the exact one, the matrix is
Hermitian up to `2⁻³³`, and the trace is 1 up to `2⁻³³`. -/
example : ∃ gs, List.Forall₂ (fun d g => GateDesc.build d = .ok g) sampleGates gs ∧ ∃ M', GatesRunDMF Bin.lib 2 gs groundMatrix M' ∧
    (∀ p, CellOf 2 p → ‖cval Bin.val (M' p) - exactDensity (2 ^ 2) sampleGates (fun p => if p = (0, 0) then 1 else 0) p‖ ≤ 2⁻¹ ^ 34) ∧
    (∀ i j : U64, i.toNat < 2 ^ 2 → j.toNat < 2 ^ 2 → ‖cval Bin.val (M' (i, j)) - conj (cval Bin.val (M' (j, i)))‖ ≤ 2⁻¹ ^ 33) ∧
    ‖traceOf (2 ^ 2) (fun p => cval Bin.val (M' p)) - 1‖ ≤ 2⁻¹ ^ 33 := by
  obtain ⟨gs, hb⟩ := sampleGates_built
  have hl : sampleGates.length = 3 := rfl
  have A := Bin.accurate le_rfl
  have hd := sampleGates_dm
  have hM := groundMatrix_frob.le
  have hk : (sampleGates.length : ℝ) * (8192 * (2 * 2⁻¹ ^ 50 + 0 * 2 ^ 2)) ≤ 1 := by rw [hl]; norm_num
  obtain ⟨M', h1, -, -⟩ := C95_sequence A (by norm_num) (by norm_num) rfl hb hd hk groundMatrix hM
  refine ⟨gs, hb, M', h1, fun p hp => ?_, fun i j hi hj => ?_, ?_⟩
  · have := C95_elements A (by norm_num) (by norm_num) rfl hb hd hk hM h1 hp
    rw [groundMatrix_val] at this
    exact this.trans (by rw [hl]; norm_num)
  · have := C95_hermitian A (by norm_num) (by norm_num) rfl hb hd hk hM
      (by rw [groundMatrix_val]
          intro i j _ _
          simp [apply_ite conj, and_comm]) h1 hi hj
    exact this.trans (by rw [hl]; norm_num)
  · have := C95_trace A (by norm_num) (by norm_num) rfl hb hd (fun d h => (sampleGates_facts d h).2.1) hk hM h1
    rw [groundMatrix_val, show traceOf (2 ^ 2) (fun p : U64 × U64 => if p = (0, 0) then (1 : ℂ) else 0) = 1 by
      rw [traceOf, show (2 ^ 2 : Nat) = 4 from rfl]
      simp only [Finset.sum_range_succ, Finset.sum_range_zero]
      simp, show √((2 : ℝ) ^ 2) = 2 from Real.sqrt_sq (by norm_num)] at this
    exact this.trans (by rw [hl]; norm_num)

/-- a controlled ECR gate meets the conditions of `C95_gate`; a Pauli rotation and a gate on qubit 5 of 4 those of `C95_throws` -/
example : BoundedDM (2⁻¹ ^ 53) (2⁻¹ ^ 53) 0 (2⁻¹ ^ 50) 4 (.ecr 3 1 [0] [0]) ∧ ¬ StandardDesc (.pauliRot ⟨1, 3, 0⟩ 1 [] []) ∧
    DescOK (.pauliRot ⟨1, 3, 0⟩ 1 [] []) ∧ ¬ (∀ q ∈ qubitsOf (.one .H 5 [] []), q < 4) := by
  refine ⟨⟨trivial, by simp [angles], ?_⟩, fun h => h, trivial, by simp [qubitsOf, targetsOf]⟩
  simp [qubitsOf, targetsOf, controlsOf, ctrlList, effectiveValues]

end Verif.Props
