import Verif.Proofs.FloatEntropy
import Verif.Proofs.FloatReal
import Verif.Proofs.BinExact
import Verif.Spec.Binary16
import Verif.Props.State
import Verif.Props.Density
import Verif.Props.Reductions

/-! # C84: entropies in floating-point arithmetic; further theorems of C56 and C57 on batches -/

namespace Verif.Props
open Verif Verif.Spec Verif.Model Verif.Proofs
attribute [-simp] BitVec.getLsbD_eq_getElem

/-! ## batches in exact arithmetic -/

/-- **C56 (norms of batches).** `StateVectorBatched::get_squared_norm` returns the squared norm of each slot. -/
theorem C56_norm_batched {s : Batch} (hn : s.n ≤ 63) :
    s.squaredNorm = .ok ((List.range s.size).map fun b => ∑ j ∈ indices (2 ^ s.n), Complex.normSq (s.raw b j)) :=
  perSlot_ok fun b _ => squaredNorm_eq hn (s.raw b)

theorem shannon_eq (n : Nat) (ψ : U64 → ℂ) : shannon n ψ = ∑ j ∈ indices (2 ^ n), plogp (Complex.normSq (ψ j)) := by
  unfold shannon plogp
  refine Finset.sum_congr rfl fun j _ => ?_
  have := Complex.normSq_nonneg (ψ j)
  by_cases h : Complex.normSq (ψ j) = 0
  · rw [if_pos h, if_neg (by rw [h]; exact lt_irrefl _)]
  · rw [if_neg h, if_pos (lt_of_le_of_ne this (Ne.symm h))]

theorem plogp_eps : plogp (1 / 10 ^ 15) ≤ 5 / 10 ^ 14 := by
  rw [plogp, if_pos (by norm_num)]
  have : Real.logb 2 (1 / (1 / 10 ^ 15)) ≤ 50 := by
    rw [Real.logb_le_iff_le_rpow (by norm_num) (by norm_num)]
    norm_num
  nlinarith

/-- **C57 (batches).** The clamping of the probabilities changes the entropy of a slot by at most `5 * 10⁻¹⁴` per basis state. -/
theorem C57_batched_partial {s : Batch} (hn : s.n ≤ 63) :
    ∃ v : Nat → ℝ, s.entropy = .ok ((List.range s.size).map v) ∧
      ∀ b, b < s.size → |v b - shannon s.n (s.raw b)| ≤ 2 ^ s.n * (5 / 10 ^ 14) := by
  refine ⟨fun b => ∑ i ∈ Finset.range (2 ^ s.n), plogp (max (Complex.normSq (s.raw b (BitVec.ofNat 64 i))) (1 / 10 ^ 15)), ?_, ?_⟩
  · unfold Batch.entropy
    refine perSlot_ok fun b _ => reduceSum_ok fun i hi => ?_
    rw [readSq_ok (by rw [toNat_ofNat_pow hn hi]; exact hi), ok_bind]
    show Except.ok _ = Except.ok _
    congr 1
    rw [plogp, if_pos (lt_of_lt_of_le (by norm_num) (le_max_right _ _)), one_div (max _ _), Real.logb_inv]
    ring
  · intro b _
    rw [shannon_eq, sum_indices (pow64 hn), ← Finset.sum_sub_distrib]
    refine (Finset.abs_sum_le_sum_abs _ _).trans ?_
    have : ∀ i ∈ Finset.range (2 ^ s.n), |plogp (max (Complex.normSq (s.raw b (BitVec.ofNat 64 i))) (1 / 10 ^ 15)) -
        plogp (Complex.normSq (s.raw b (BitVec.ofNat 64 i)))| ≤ 5 / 10 ^ 14 := by
      intro i _
      generalize hp : Complex.normSq (s.raw b (BitVec.ofNat 64 i)) = p
      have hp0 : 0 ≤ p := by rw [← hp]; exact Complex.normSq_nonneg _
      rcases le_total (1 / 10 ^ 15) p with h | h
      · rw [max_eq_left h, sub_self, abs_zero]; norm_num
      · rw [max_eq_right h]
        have h1 : plogp p ≤ plogp (1 / 10 ^ 15) := by
          rw [plogp_eq hp0, plogp_eq (by norm_num)]
          exact div_le_div_of_nonneg_right (nml_mono hp0 h (by norm_num)) (Real.log_nonneg (by norm_num))
        have h2 := plogp_nonneg (d := p) (h.trans (by norm_num))
        have h3 := plogp_eps
        rw [abs_le]; constructor <;> linarith
    refine (Finset.sum_le_sum this).trans ?_
    rw [Finset.sum_const, Finset.card_range, nsmul_eq_mul]
    push_cast; exact le_rfl

example : zeroBatch.n ≤ 63 ∧ 0 < zeroBatch.size := by constructor <;> norm_num [zeroBatch]

/-! ## floating-point arithmetic -/

section
variable {F : Type} [_root_.Zero F] [One F] [Add F] [Sub F] [Mul F] [Neg F] {lib : FloatLib F} {E : EntropyLib F} {val : F → ℝ} {u w η ℓ Ω : ℝ}

theorem squared_error (A : Accurate lib val u w η Ω) (hu : u ≤ 1 / 64) (hη : η ≤ 1 / 64) {z : Cx F} (hz : ‖cval val z‖ ≤ 4) :
    |val (squaredC z : F) - Complex.normSq (cval val z)| ≤ 3 * u * Complex.normSq (cval val z) + 3 * η ∧
    Complex.normSq (cval val z) ≤ 16 := by
  obtain ⟨h, -, -⟩ := squaredC_appr A hu hη hz
  have hu0 := A.u_nonneg
  have hη0 := A.eta_nonneg
  have h0 := Complex.normSq_nonneg (cval val z)
  refine ⟨h.trans ?_, by rw [Complex.normSq_eq_norm_sq]; nlinarith [norm_nonneg (cval val z)]⟩
  have e1 : (1 + u) ^ 2 - 1 ≤ 3 * u := by nlinarith
  have e2 : (1 + u) * (2 * η) ≤ 3 * η := by nlinarith
  exact add_le_add (mul_le_mul_of_nonneg_right e1 h0) e2

/-- **C84, single states.** Whatever the order of the additions, `get_computational_basis_entropy` is the Shannon entropy up to
`entErr`; `P` is the squared norm, `M` the sum of the magnitudes of the contributions (the entropy itself for normalised states). -/
theorem C84_entropy (A : Accurate lib val u w η Ω) (Z : AddZero val Ω) (B : EntropyAccurate E val u η ℓ) (hu : u ≤ 1 / 64) (hη : η ≤ 1 / 64)
    (hℓ : ℓ ≤ 1 / 64) {n : Nat} (hn : n ≤ 63) {m : U64 → Cx F} (hm : ∀ j : U64, j.toNat < 2 ^ n → ‖cval val (m j)‖ ≤ 4) {P M : ℝ}
    (hP : P = normSq (2 ^ n) fun j => cval val (m j)) (hM : M = ∑ j ∈ indices (2 ^ n), |plogp (Complex.normSq (cval val (m j)))|)
    (hΩ : (1 + u) ^ 2 ^ n * (M + termErr u ℓ (3 * η) (2 ^ n) P M) ≤ Ω) :
    Within val (EntropyF E n m) (shannon n fun j => cval val (m j)) (entErr u ℓ (3 * η) (2 ^ n) P M) := by
  have hu0 := A.u_nonneg
  have hη0 := A.eta_nonneg
  have key := partialReduction_ok (l := List.range (2 ^ n)) (f := fun i => do
      let prob : F ← readSqF (2 ^ n) m (BitVec.ofNat 64 i)
      pure (surpriseIf E prob)) (g := fun i => surpriseIf E (squaredC (m (BitVec.ofNat 64 i)) : F)) (by
    intro i hi
    have hi := List.mem_range.1 hi
    unfold readSqF
    rw [readAt_ok (by rw [toNat_ofNat_pow hn hi]; exact hi)]
    rfl)
  constructor
  · obtain ⟨s, hs⟩ := reducesTo_exists (((List.range (2 ^ n)).map fun i => surpriseIf E (squaredC (m (BitVec.ofNat 64 i)) : F)).filterMap id)
    exact ⟨.ok s, (key _).2 ⟨s, rfl, hs⟩⟩
  · intro r hr
    obtain ⟨s, rfl, hs⟩ := (key r).1 hr
    refine ⟨s, rfl, ?_⟩
    rw [shannon_eq, sum_indices (pow64 hn)]
    refine entropy_sum A Z (ℓ := ℓ) (d := 3 * η) (p := fun i => Complex.normSq (cval val (m (BitVec.ofNat 64 i)))) (by simp)
      (by rw [hP]; unfold normSq; rw [sum_indices (pow64 hn)]; rfl) (by rw [hM, sum_indices (pow64 hn)]; rfl) ?_ hΩ hs
    intro i hi
    have hi := List.mem_range.1 hi
    have hz := hm (BitVec.ofNat 64 i) (by rw [toNat_ofNat_pow hn hi]; exact hi)
    obtain ⟨h1, h2⟩ := squared_error A hu hη hz
    have h0 := Complex.normSq_nonneg (cval val (m (BitVec.ofNat 64 i)))
    have hx := abs_le.1 h1
    have hg := B.gt (squaredC (m (BitVec.ofNat 64 i)) : F) 0 (by rw [abs_le]; constructor <;> nlinarith) (by rw [A.zero, abs_zero]; norm_num)
    rw [A.zero] at hg
    unfold surpriseIf
    by_cases hgt : E.gt (squaredC (m (BitVec.ofNat 64 i)) : F) 0 = true
    · rw [if_pos hgt]
      exact surprise_item B hu0 hu hη0 hℓ h0 h2 (hg.1 hgt) h1 le_rfl (by linarith)
    · rw [if_neg hgt]
      exact silent_item hu0 hu B.nonneg h0 h2 (not_lt.1 fun h => hgt (hg.2 h)) h1 (by positivity) (by linarith)

/-- **C84, batches.** For formats that represent `10⁻¹⁵`, the entropy of a slot is the Shannon entropy up to `entErr` with an absolute
error of the probabilities of `2 * 10⁻¹⁵`. -/
theorem C84_batched_partial (A : Accurate lib val u w η Ω) (Z : AddZero val Ω) (B : EntropyAccurate E val u η ℓ) (hu : u ≤ 1 / 64)
    (hη : η ≤ 1 / 10 ^ 16) (hℓ : ℓ ≤ 1 / 64) {n : Nat} (hn : n ≤ 63) {m : U64 → Cx F} (hm : ∀ j : U64, j.toNat < 2 ^ n → ‖cval val (m j)‖ ≤ 4)
    {P M : ℝ} (hP : P = normSq (2 ^ n) fun j => cval val (m j)) (hM : M = ∑ j ∈ indices (2 ^ n), |plogp (Complex.normSq (cval val (m j)))|)
    (hΩ : (1 + u) ^ 2 ^ n * (M + termErr u ℓ (2 / 10 ^ 15) (2 ^ n) P M) ≤ Ω) :
    Within val (SlotEntropyF lib E n m) (shannon n fun j => cval val (m j)) (entErr u ℓ (2 / 10 ^ 15) (2 ^ n) P M) := by
  have hu0 := A.u_nonneg
  have hη0 := A.eta_nonneg
  have key := rangeReduction_ok (N := 2 ^ n) (f := fun i => do
      let prob : F ← readSqF (2 ^ n) m i
      pure (surprise E (clampF lib E prob))) (g := fun i => surprise E (clampF lib E (squaredC (m (BitVec.ofNat 64 i)) : F))) (by
    intro i hi
    unfold readSqF
    rw [readAt_ok (by rw [toNat_ofNat_pow hn hi]; exact hi)]
    rfl)
  constructor
  · obtain ⟨s, hs⟩ := reducesTo_exists ((List.range (2 ^ n)).map fun i => surprise E (clampF lib E (squaredC (m (BitVec.ofNat 64 i)) : F)))
    exact ⟨.ok s, (key _).2 ⟨s, rfl, hs⟩⟩
  · intro r hr
    obtain ⟨s, rfl, hs⟩ := (key r).1 hr
    refine ⟨s, rfl, ?_⟩
    rw [shannon_eq, sum_indices (pow64 hn)]
    refine entropy_sum A Z (ℓ := ℓ) (d := 2 / 10 ^ 15) (p := fun i => Complex.normSq (cval val (m (BitVec.ofNat 64 i))))
      (c := fun i => some (surprise E (clampF lib E (squaredC (m (BitVec.ofNat 64 i)) : F)))) (by simp)
      (by rw [hP]; unfold normSq; rw [sum_indices (pow64 hn)]; rfl) (by rw [hM, sum_indices (pow64 hn)]; rfl) ?_ hΩ (by
        have e : ((List.range (2 ^ n)).map fun i => some (surprise E (clampF lib E (squaredC (m (BitVec.ofNat 64 i)) : F)))).filterMap id =
            (List.range (2 ^ n)).map fun i => surprise E (clampF lib E (squaredC (m (BitVec.ofNat 64 i)) : F)) := by
          rw [List.filterMap_map]
          exact congrFun List.filterMap_eq_map' _
        rw [e]; exact hs)
    intro i hi
    have hi := List.mem_range.1 hi
    have hz := hm (BitVec.ofNat 64 i) (by rw [toNat_ofNat_pow hn hi]; exact hi)
    obtain ⟨h1, h2⟩ := squared_error A hu (hη.trans (by norm_num)) hz
    have h0 := Complex.normSq_nonneg (cval val (m (BitVec.ofNat 64 i)))
    have he := A.cast (1 / 10 ^ 15) (by rw [abs_of_pos] <;> norm_num)
    rw [abs_of_pos (show (0 : ℝ) < 1 / 10 ^ 15 by norm_num)] at he
    show |val (surprise E (clampF lib E (squaredC (m (BitVec.ofNat 64 i)) : F))) - _| ≤ _
    change |val (epsF lib) - _| ≤ _ at he
    generalize (squaredC (m (BitVec.ofNat 64 i)) : F) = x at *
    generalize Complex.normSq (cval val (m (BitVec.ofNat 64 i))) = p at *
    have hx := abs_le.1 h1
    have he' := abs_le.1 he
    have heu : u * (1 / 10 ^ 15) ≤ 1 / 64 * (1 / 10 ^ 15) := mul_le_mul_of_nonneg_right hu (by norm_num)
    have hepos : 0 < val (epsF lib) := by norm_num at *; linarith
    have hele : val (epsF lib) ≤ 3 / 2 / 10 ^ 15 := by norm_num at *; linarith
    have hup : u * p ≤ 1 / 64 * p := mul_le_mul_of_nonneg_right hu h0
    have hup0 : 0 ≤ u * p := mul_nonneg hu0 h0
    have hg := B.gt (epsF lib) x (by rw [abs_of_pos hepos]; norm_num at *; linarith) (by norm_num at hη; rw [abs_le]; constructor <;> linarith)
    have h3η : 3 * η ≤ 2 / 10 ^ 15 := by norm_num at *; linarith
    unfold clampF
    by_cases hgt : E.gt (epsF lib) x = true
    · rw [if_pos hgt]
      have hlt := hg.1 hgt
      refine surprise_item B hu0 hu hη0 hℓ h0 h2 hepos ?_ h3η (by norm_num)
      rw [abs_le]
      norm_num at *
      constructor <;> linarith
    · rw [if_neg hgt]
      have hle : val (epsF lib) ≤ val x := not_lt.1 fun h => hgt (hg.2 h)
      exact surprise_item B hu0 hu hη0 hℓ h0 h2 (hepos.trans_le hle) (h1.trans (add_le_add le_rfl h3η)) h3η (by norm_num)

/-- **C84, density matrices.** The entropy of the positive diagonal elements, up to `entErr`; a density matrix not marked Hermitian
throws. -/
theorem C84_density (A : Accurate lib val u w η Ω) (Z : AddZero val Ω) (B : EntropyAccurate E val u η ℓ) (hu : u ≤ 1 / 64) (hη : η ≤ 1 / 64)
    (hℓ : ℓ ≤ 1 / 64) {n : Nat} (hn : n ≤ 63) {ρ : U64 × U64 → Cx F} (hm : ∀ j : U64, j.toNat < 2 ^ n → |val (ρ (j, j)).re| ≤ 16) {P M : ℝ}
    (hP : P = ∑ j ∈ indices (2 ^ n), max (val (ρ (j, j)).re) 0) (hM : M = ∑ j ∈ indices (2 ^ n), |plogp (val (ρ (j, j)).re)|)
    (hΩ : (1 + u) ^ 2 ^ n * (M + termErr u ℓ (3 * η) (2 ^ n) P M) ≤ Ω) :
    Within val (EntropyMF E n true ρ) (∑ j ∈ indices (2 ^ n), plogp (val (ρ (j, j)).re)) (entErr u ℓ (3 * η) (2 ^ n) P M) ∧
    ∃ e, ∀ r, EntropyMF E n false ρ r ↔ r = .error (.throw e) := by
  have hu0 := A.u_nonneg
  have hη0 := A.eta_nonneg
  refine ⟨?_, ?_⟩
  swap
  · unfold EntropyMF; simp only [if_true]; exact ⟨_, fun _ => Iff.rfl⟩
  have key := partialReduction_ok (l := List.range (2 ^ n)) (f := fun i =>
      let j := BitVec.ofNat 64 i
      if j.toNat < 2 ^ n then .ok (surpriseIf E (Cplx.re (ρ (j, j)) : F)) else .error (.ub "out of range"))
      (g := fun i => surpriseIf E (ρ (BitVec.ofNat 64 i, BitVec.ofNat 64 i)).re) (by
    intro i hi
    have hi := List.mem_range.1 hi
    dsimp only
    rw [if_pos (by rw [toNat_ofNat_pow hn hi]; exact hi)]
    rfl)
  have hE : EntropyMF E n true ρ = PartialReduction (List.range (2 ^ n)) (fun i =>
      let j := BitVec.ofNat 64 i
      if j.toNat < 2 ^ n then .ok (surpriseIf E (Cplx.re (ρ (j, j)) : F)) else .error (.ub "out of range")) := by
    funext r; unfold EntropyMF; rw [if_neg (by simp)]
  rw [hE]
  constructor
  · obtain ⟨s, hs⟩ := reducesTo_exists (((List.range (2 ^ n)).map fun i => surpriseIf E (ρ (BitVec.ofNat 64 i, BitVec.ofNat 64 i)).re).filterMap id)
    exact ⟨.ok s, (key _).2 ⟨s, rfl, hs⟩⟩
  · intro r hr
    obtain ⟨s, rfl, hs⟩ := (key r).1 hr
    refine ⟨s, rfl, ?_⟩
    have hmax : ∀ x : ℝ, plogp x = plogp (max x 0) := by
      intro x
      rcases le_total x 0 with h | h
      · rw [max_eq_right h, plogp_neg h, plogp_neg le_rfl]
      · rw [max_eq_left h]
    rw [sum_indices (pow64 hn)]
    simp only [hmax (val _)] at hM ⊢
    refine entropy_sum A Z (ℓ := ℓ) (d := 3 * η) (p := fun i => max (val (ρ (BitVec.ofNat 64 i, BitVec.ofNat 64 i)).re) 0) (by simp)
      (by rw [hP, sum_indices (pow64 hn)]; rfl) (by rw [hM, sum_indices (pow64 hn)]; rfl) ?_ hΩ hs
    intro i hi
    have hi := List.mem_range.1 hi
    have hz := hm (BitVec.ofNat 64 i) (by rw [toNat_ofNat_pow hn hi]; exact hi)
    show |optVal val (surpriseIf E (ρ (BitVec.ofNat 64 i, BitVec.ofNat 64 i)).re) - _| ≤ _
    generalize (ρ (BitVec.ofNat 64 i, BitVec.ofNat 64 i)).re = x at *
    have hx := abs_le.1 hz
    have hg := B.gt x 0 (hz.trans (by norm_num)) (by rw [A.zero, abs_zero]; norm_num)
    rw [A.zero] at hg
    unfold surpriseIf
    by_cases hgt : E.gt x 0 = true
    · have hpos : 0 < val x := hg.1 hgt
      rw [if_pos hgt, max_eq_left hpos.le]
      exact surprise_item B hu0 hu hη0 hℓ hpos.le hx.2 hpos (by rw [sub_self, abs_zero]; positivity) le_rfl (by linarith)
    · rw [if_neg hgt, max_eq_right (not_lt.1 fun h => hgt (hg.2 h))]
      exact silent_item hu0 hu B.nonneg le_rfl (by norm_num) le_rfl (by rw [sub_self, abs_zero]; positivity) (by positivity) (by linarith)

/-! ## special values -/

omit [One F] [Sub F] in
theorem reducesTo_nan {isNaN isZero : F → Prop} (S : SpecialValues E isNaN isZero) {l : List F} {r : F} (h : ReducesTo l r) :
    (∃ x ∈ l, isNaN x) → isNaN r := by
  induction h with
  | init => rintro ⟨x, hx, -⟩; cases hx
  | item x _ ih =>
    rintro ⟨y, hy, hn⟩
    rcases List.mem_cons.1 hy with rfl | hy
    · exact S.add_right _ _ hn
    · exact S.add_left _ _ (ih ⟨y, hy, hn⟩)
  | join _ _ ih ih' =>
    rintro ⟨y, hy, hn⟩
    rcases List.mem_append.1 hy with hy | hy
    · exact S.add_left _ _ (ih ⟨y, hy, hn⟩)
    · exact S.add_right _ _ (ih' ⟨y, hy, hn⟩)
  | perm hp _ ih =>
    rintro ⟨y, hy, hn⟩
    exact ih ⟨y, hp.mem_iff.2 hy, hn⟩

omit [One F] [Sub F] in
/-- **C84, formats that do not represent `10⁻¹⁵`.** If `1e-15` is converted to zero, the entropy of a slot one of whose probabilities is
computed as zero is NaN, for every order of the additions. -/
theorem C84_batched_nan {isNaN isZero : F → Prop} (S : SpecialValues E isNaN isZero) (he : isZero (lib.cast (1 / 10 ^ 15))) {n : Nat}
    (hn : n ≤ 63) {m : U64 → Cx F} {j : U64} (hj : j.toNat < 2 ^ n) (hz : isZero (squaredC (m j) : F)) (r : Res F)
    (hr : SlotEntropyF lib E n m r) : ∃ s, r = .ok s ∧ isNaN s := by
  obtain ⟨s, rfl, hs⟩ := (rangeReduction_ok (N := 2 ^ n) (f := fun i => do
      let prob : F ← readSqF (2 ^ n) m i
      pure (surprise E (clampF lib E prob))) (g := fun i => surprise E (clampF lib E (squaredC (m (BitVec.ofNat 64 i)) : F))) (by
    intro i hi
    unfold readSqF
    rw [readAt_ok (by rw [toNat_ofNat_pow hn hi]; exact hi)]
    rfl) r).1 hr
  refine ⟨s, rfl, reducesTo_nan S hs ⟨_, List.mem_map.2 ⟨j.toNat, List.mem_range.2 hj, rfl⟩, ?_⟩⟩
  rw [show BitVec.ofNat 64 j.toNat = j by simp]
  refine S.log2_zero _ ?_
  unfold clampF
  split
  · exact he
  · exact hz

end

/-- `|0>` of one qubit in half precision -/
noncomputable def halfKet : U64 → Cx Half := fun j => if j = 0 then 1 else 0

theorem half_sq : (squaredC (halfKet 0) : Half) = 1 ∧ (squaredC (halfKet 1) : Half) = 0 := by
  have z : (0 : Half) * 0 = 0 := by show Half.near (0 * 0) = Half.fin 0; rw [mul_zero, Half.near_zero]
  have o : (1 : Half) * 1 = 1 := by show Half.near (1 * 1) = Half.fin 1; rw [mul_one, Half.near_one]
  constructor
  · show (1 : Half) * 1 + 0 * 0 = 1
    rw [z, o]; show Half.near (1 + 0) = Half.fin 1; rw [add_zero, Half.near_one]
  · show (0 : Half) * 0 + 0 * 0 = 0
    rw [z]; show Half.near (0 + 0) = Half.fin 0; rw [add_zero, Half.near_zero]

/-- **C84 (counterexample).** In half precision the batched entropy of `|0>` is NaN; that of the single state is 0, the Shannon entropy. -/
theorem C84_half_counterexample :
    (∃ r, SlotEntropyF Half.lib Half.entropyLib 1 halfKet r) ∧
    (∀ r, SlotEntropyF Half.lib Half.entropyLib 1 halfKet r → r = .ok .nan) ∧
    (∀ r, EntropyF Half.entropyLib 1 halfKet r → r = .ok (.fin 0)) := by
  refine ⟨?_, fun r hr => ?_, fun r hr => ?_⟩
  · obtain ⟨s, hs⟩ := reducesTo_exists ((List.range (2 ^ 1)).map fun i =>
      surprise Half.entropyLib (clampF Half.lib Half.entropyLib (squaredC (halfKet (BitVec.ofNat 64 i)) : Half)))
    refine ⟨.ok s, (rangeReduction_ok (fun i hi => ?_) _).2 ⟨s, rfl, hs⟩⟩
    unfold readSqF
    rw [readAt_ok (by rw [toNat_ofNat_pow (n := 1) (by norm_num) hi]; exact hi)]
    rfl
  · obtain ⟨s, rfl, hs⟩ := C84_batched_nan Half.specialValues (show Half.isZero (Half.near _) from Half.near_eps) (n := 1) (by norm_num)
      (j := 1) (by decide) half_sq.2 r hr
    exact congrArg Except.ok hs
  · obtain ⟨s, rfl, hs⟩ := (partialReduction_ok (l := List.range (2 ^ 1)) (f := fun i => do
        let prob : Half ← readSqF (2 ^ 1) halfKet (BitVec.ofNat 64 i)
        pure (surpriseIf Half.entropyLib prob)) (g := fun i => surpriseIf Half.entropyLib (squaredC (halfKet (BitVec.ofNat 64 i)) : Half)) (by
      intro i hi
      have hi := List.mem_range.1 hi
      unfold readSqF
      rw [readAt_ok (by rw [toNat_ofNat_pow (n := 1) (by norm_num) hi]; exact hi)]
      rfl) r).1 hr
    have e : ((List.range (2 ^ 1)).map fun i => surpriseIf Half.entropyLib (squaredC (halfKet (BitVec.ofNat 64 i)) : Half)).filterMap id =
        [(0 : Half)] := by
      have e0 : surpriseIf Half.entropyLib (1 : Half) = some 0 := by
        unfold surpriseIf surprise
        have g : Half.entropyLib.gt 1 0 = true := by
          show decide ((1 : ℝ) > 0) = true; simp
        have l : Half.entropyLib.log2 1 = 0 := by
          show (if (1 : ℝ) = 0 then _ else if (1 : ℝ) < 0 then _ else Half.near (Real.logb 2 1)) = Half.fin 0
          rw [if_neg one_ne_zero, if_neg (by norm_num), Real.logb_one, Half.near_zero]
        rw [if_pos g, l]
        show some (Half.near (-1 * 0)) = some (Half.fin 0)
        rw [mul_zero, Half.near_zero]
      have e1 : surpriseIf Half.entropyLib (0 : Half) = none := by
        unfold surpriseIf
        have g : Half.entropyLib.gt 0 0 = false := by
          show decide ((0 : ℝ) > 0) = false; simp
        rw [g]; rfl
      show (List.filterMap id [surpriseIf Half.entropyLib (squaredC (halfKet 0) : Half), surpriseIf Half.entropyLib (squaredC (halfKet 1) : Half)]) = _
      rw [half_sq.1, half_sq.2, e0, e1]; rfl
    rw [e] at hs
    have zz : (0 : Half) + 0 = 0 := by show Half.near (0 + 0) = Half.fin 0; rw [add_zero, Half.near_zero]
    have key : ∀ {l : List Half} {x : Half}, ReducesTo l x → (∀ y ∈ l, y = 0) → x = 0 := by
      intro l x h
      induction h with
      | init => intro _; rfl
      | item y _ ih => intro hy; rw [ih fun z hz => hy z (List.mem_cons_of_mem _ hz), hy y List.mem_cons_self, zz]
      | join _ _ ih ih' => intro hy; rw [ih fun z hz => hy z (List.mem_append_left _ hz), ih' fun z hz => hy z (List.mem_append_right _ hz), zz]
      | perm hp _ ih => intro hy; exact ih fun z hz => hy z (hp.mem_iff.1 hz)
    exact congrArg Except.ok (key hs (by simp))

/-! ## examples: double precision -/

open Classical in
/-- comparison and correctly rounded logarithm of `Bin` -/
noncomputable def binEntropyLib : EntropyLib Bin := ⟨fun x y => decide (x.val > y.val), fun x => Bin.near (Real.logb 2 x.val)⟩

theorem bin_entropyAccurate : EntropyAccurate binEntropyLib Bin.val (2⁻¹ ^ 53) 0 (2⁻¹ ^ 53) where
  gt x y _ _ := by simp [binEntropyLib]
  nonneg := by positivity
  log2 x _ _ := Bin.near_error _
  prod x _ _ := by
    have := Bin.near_error ((-x).val * (binEntropyLib.log2 x).val)
    rw [Bin.val_neg, neg_mul, abs_neg] at this
    rw [add_zero]
    show |(Bin.near ((-x).val * (binEntropyLib.log2 x).val)).val - _| ≤ _
    rw [Bin.val_neg, neg_mul]
    exact this

/-- The uniform superposition of two qubits in double precision: the entropy is 2 up to `2⁻⁴³`, or `10⁻¹¹` for a slot of a batch. -/
example : ∃ m : U64 → Cx Bin, (∀ j, cval Bin.val (m j) = (1 / 2 : ℂ)) ∧
    Within Bin.val (EntropyF binEntropyLib 2 m) 2 (2⁻¹ ^ 43) ∧
    Within Bin.val (SlotEntropyF Bin.lib binEntropyLib 2 m) 2 (1 / 10 ^ 11) := by
  have hh : (Bin.lib.half 1).val = 1 / 2 := by rw [Bin.val_half, Bin.val_one]
  have hc : cval Bin.val ⟨Bin.lib.half 1, 0⟩ = (1 / 2 : ℂ) := by
    apply Complex.ext
    · show (Bin.lib.half 1).val = _; rw [hh]; norm_num
    · show (0 : Bin).val = _; rw [Bin.val_zero]; norm_num
  have hp : plogp (1 / 4) = 1 / 2 := by
    rw [plogp, if_pos (by norm_num), show (1 : ℝ) / (1 / 4) = 2 ^ (2 : ℝ) by norm_num, Real.logb_rpow (by norm_num) (by norm_num)]
    norm_num
  have hsq : Complex.normSq (1 / 2 : ℂ) = 1 / 4 := by rw [Complex.normSq_eq_norm_sq]; norm_num
  have hs : shannon 2 (fun _ => (1 / 2 : ℂ)) = 2 := by
    rw [shannon_eq, sum_indices (by norm_num)]
    simp only [hsq, hp]; norm_num
  have hP : normSq (2 ^ 2) (fun _ => (1 / 2 : ℂ)) = 1 := by
    unfold normSq; rw [sum_indices (by norm_num)]; simp only [hsq]; norm_num
  have hM : ∑ j ∈ indices (2 ^ 2), |plogp (Complex.normSq (1 / 2 : ℂ))| = 2 := by
    rw [sum_indices (by norm_num)]; simp only [hsq, hp]; norm_num
  have hp0 : plogp 0 = 0 := plogp_neg le_rfl
  have hn : ‖(1 / 2 : ℂ)‖ ≤ 4 := by norm_num
  have he : plogp (2 / 10 ^ 15) ≤ 1 / 10 ^ 13 := by
    rw [plogp, if_pos (by norm_num)]
    have : Real.logb 2 (1 / (2 / 10 ^ 15)) ≤ 49 := by
      rw [Real.logb_le_iff_le_rpow (by norm_num) (by norm_num)]; norm_num
    norm_num at *; linarith
  have he0 := plogp_nonneg (d := 2 / 10 ^ 15) (by norm_num)
  refine ⟨fun _ => ⟨Bin.lib.half 1, 0⟩, fun _ => hc, ?_, ?_⟩
  · have := C84_entropy (Bin.accurate (Ω := 64) le_rfl) (bin_addZero 64) bin_entropyAccurate (by norm_num) (by norm_num) (by norm_num)
      (n := 2) (by norm_num) (m := fun _ => ⟨Bin.lib.half 1, 0⟩) (fun j _ => by rw [hc]; exact hn) (P := 1) (M := 2)
      (by simp only [hc]; exact hP.symm) (by simp only [hc]; exact hM.symm) (by
        unfold termErr; rw [mul_zero, hp0]; norm_num)
    simp only [hc] at this
    rw [hs] at this
    refine ⟨this.1, fun r h => ?_⟩
    obtain ⟨s, h1, h2⟩ := this.2 r h
    refine ⟨s, h1, h2.trans ?_⟩
    unfold entErr termErr; rw [mul_zero, hp0]; norm_num
  · have := C84_batched_partial (Bin.accurate (Ω := 64) le_rfl) (bin_addZero 64) bin_entropyAccurate (by norm_num) (by norm_num) (by norm_num)
      (n := 2) (by norm_num) (m := fun _ => ⟨Bin.lib.half 1, 0⟩) (fun j _ => by rw [hc]; exact hn) (P := 1) (M := 2)
      (by simp only [hc]; exact hP.symm) (by simp only [hc]; exact hM.symm) (by
        unfold termErr; generalize plogp (2 / 10 ^ 15) = x at *; norm_num at *; nlinarith)
    simp only [hc] at this
    rw [hs] at this
    refine ⟨this.1, fun r h => ?_⟩
    obtain ⟨s, h1, h2⟩ := this.2 r h
    refine ⟨s, h1, h2.trans ?_⟩
    unfold entErr termErr; generalize plogp (2 / 10 ^ 15) = x at *; norm_num at *; nlinarith

/-! ## exact arithmetic -/

theorem partial_exact {N : Nat} {f : Nat → Res (Option ℝ)} {g : U64 → Res ℝ} {x : Nat → ℝ}
    (hf : ∀ i, i < N → f i = .ok (surpriseIf exactEntropyLib (x i)))
    (hg : ∀ i, i < N → g (BitVec.ofNat 64 i) = .ok (if x i > 0 then -x i * Real.logb 2 (x i) else 0)) (r : Res ℝ) :
    PartialReduction (List.range N) f r ↔ r = reduceSum N g := by
  rw [partialReduction_ok (g := fun i => surpriseIf exactEntropyLib (x i)) (fun i hi => hf i (List.mem_range.1 hi)), reduceSum_ok hg]
  have e : ((((List.range N).map fun i => surpriseIf exactEntropyLib (x i)).filterMap id)).sum =
      ∑ i ∈ Finset.range N, if x i > 0 then -x i * Real.logb 2 (x i) else 0 := by
    have := (filterMap_sum (val := (id : ℝ → ℝ)) (fun i => surpriseIf exactEntropyLib (x i)) (List.range N)).1
    rw [List.map_id] at this
    rw [this]
    show _ = ((List.range N).map _).sum
    congr 1
    refine List.map_congr_left fun i _ => ?_
    unfold surpriseIf surprise exactEntropyLib
    by_cases h : x i > 0
    · rw [if_pos h]; simp [h, optVal]
    · rw [if_neg h]; simp [h, optVal]
  constructor
  · rintro ⟨s, rfl, hs⟩
    rw [reducesTo_exact.1 hs, e]
  · rintro rfl
    exact ⟨_, rfl, reducesTo_exact.2 e.symm⟩

/-- **C84, exact numbers.** With exact arithmetic the models are those of C57 and C59. -/
theorem C84_exact {n : Nat} (hn : n ≤ 63) (ψ : U64 → ℂ) (s : Batch) (hs : s.n ≤ 63) (v : Nat → ℝ) (d : DM) (hd : d.n ≤ 63) :
    (∀ r : Res ℝ, EntropyF exactEntropyLib n ψ r ↔ r = entropy n ψ) ∧
    (s.entropy = .ok ((List.range s.size).map v) ↔
      ∀ b, b < s.size → SlotEntropyF exactLib exactEntropyLib s.n (s.raw b) (.ok (v b))) ∧
    (∀ r : Res ℝ, EntropyMF exactEntropyLib d.n d.hermitian d.raw r ↔ r = d.entropy) := by
  refine ⟨fun r => ?_, ?_, fun r => ?_⟩
  · refine partial_exact (x := fun i => Complex.normSq (ψ (BitVec.ofNat 64 i))) (fun i hi => ?_) (fun i hi => ?_) r
    · rw [readSqF_exact, readSq_ok (by rw [toNat_ofNat_pow hn hi]; exact hi)]; rfl
    · rw [readSq_ok (by rw [toNat_ofNat_pow hn hi]; exact hi)]; rfl
  · have hslot : ∀ b, b < s.size → ∀ i, i < 2 ^ s.n → (do
        let prob : ℝ ← readSqF (2 ^ s.n) (s.raw b) (BitVec.ofNat 64 i)
        pure (surprise exactEntropyLib (clampF exactLib exactEntropyLib prob)) : Res ℝ) =
        .ok (plogp (max (Complex.normSq (s.raw b (BitVec.ofNat 64 i))) (1 / 10 ^ 15))) := by
      intro b _ i hi
      rw [readSqF_exact, readSq_ok (by rw [toNat_ofNat_pow hs hi]; exact hi)]
      show Except.ok _ = Except.ok _
      congr 1
      rw [plogp, if_pos (lt_of_lt_of_le (by norm_num) (le_max_right _ _)), one_div (max _ _), Real.logb_inv]
      have : clampF exactLib exactEntropyLib (Complex.normSq (s.raw b (BitVec.ofNat 64 i))) =
          max (Complex.normSq (s.raw b (BitVec.ofNat 64 i))) (1 / 10 ^ 15) := by
        unfold clampF
        show (if decide ((1 / 10 ^ 15 : ℝ) > _) = true then (1 / 10 ^ 15 : ℝ) else _) = _
        by_cases h : (1 / 10 ^ 15 : ℝ) > Complex.normSq (s.raw b (BitVec.ofNat 64 i))
        · rw [if_pos (by simpa using h), max_eq_right h.le]
        · rw [if_neg (by simpa using h), max_eq_left (not_lt.1 h)]
      rw [this]
      show -_ * Real.logb 2 _ = _
      ring
    have hent : s.entropy = .ok ((List.range s.size).map fun b =>
        ∑ i ∈ Finset.range (2 ^ s.n), plogp (max (Complex.normSq (s.raw b (BitVec.ofNat 64 i))) (1 / 10 ^ 15))) := by
      unfold Batch.entropy
      refine perSlot_ok fun b _ => reduceSum_ok fun i hi => ?_
      rw [readSq_ok (by rw [toNat_ofNat_pow hs hi]; exact hi), ok_bind]
      show Except.ok _ = Except.ok _
      congr 1
      rw [plogp, if_pos (lt_of_lt_of_le (by norm_num) (le_max_right _ _)), one_div (max _ _), Real.logb_inv]
      ring
    rw [hent]
    have hout : ∀ b, b < s.size → ∀ r, SlotEntropyF exactLib exactEntropyLib s.n (s.raw b) r ↔
        r = .ok (∑ i ∈ Finset.range (2 ^ s.n), plogp (max (Complex.normSq (s.raw b (BitVec.ofNat 64 i))) (1 / 10 ^ 15))) := by
      intro b hb r
      exact rangeReduction_exact' (reduceSum_ok (hslot b hb)) r
    constructor
    · intro h b hb
      have := List.map_inj_left.1 (Except.ok.inj h) b (List.mem_range.2 hb)
      rw [← this]
      exact (hout b hb _).2 rfl
    · intro h
      congr 1
      refine List.map_congr_left fun b hb => ?_
      have hb := List.mem_range.1 hb
      exact (Except.ok.inj ((hout b hb _).1 (h b hb))).symm
  · unfold EntropyMF DM.entropy
    by_cases hh : d.hermitian = false
    · rw [if_pos hh, if_pos hh]
    · rw [if_neg hh, if_neg hh]
      refine partial_exact (x := fun i => (d.raw (BitVec.ofNat 64 i, BitVec.ofNat 64 i)).re) (fun i hi => ?_) (fun i hi => ?_) r
      · dsimp only
        rw [if_pos (by rw [toNat_ofNat_pow hd hi]; exact hi)]; rfl
      · rw [diag_ok (by rw [toNat_ofNat_pow hd hi]; exact hi)]; rfl

end Verif.Props
