import Verif.Proofs.FloatKernel
import Verif.Proofs.Dense
import Verif.Proofs.GateUpdate
import Mathlib.Algebra.Order.Chebyshev

/-! # Rounding errors of the kernels that sum rows of matrices -/

namespace Verif.Proofs
open Verif Verif.Spec Verif.Model
attribute [-simp] BitVec.getLsbD_eq_getElem

/-- a sparse matrix with its coefficients converted -/
def SMat.convert {R S : Type} (f : R → S) (m : SMat R) : SMat S := ⟨m.cols, m.stored.map fun row => row.map fun p => (p.1, f p.2)⟩

theorem outerIndex_map {α β : Type} (f : α → β) (l : List (List α)) (s : Nat) : outerIndex s (l.map fun r => r.map f) = outerIndex s l := by
  induction l generalizing s with
  | nil => rfl
  | cons r l ih => simp [outerIndex, ih]

theorem csr_convert {R S : Type} (f : R → S) (m : SMat R) :
    { Csr.ofSMat m with vals := (Csr.ofSMat m).vals.map f } = Csr.ofSMat (SMat.convert f m) := by
  simp only [Csr.ofSMat, SMat.convert, outerIndex_map, List.length_map, Csr.mk.injEq, and_true]
  rw [List.map_map, ← List.map_flatten, List.map_map, List.map_map]
  exact ⟨rfl, rfl⟩

theorem convert_ok {R S : Type} (f : R → S) {m : SMat R} {d : Nat} (h : SMat.OK m d) : SMat.OK (SMat.convert f m) d := by
  refine ⟨by simp [SMat.convert, h.rows], h.cols, ?_⟩
  intro row hrow
  simp only [SMat.convert, List.mem_map] at hrow
  obtain ⟨r, hr, rfl⟩ := hrow
  obtain ⟨h1, h2⟩ := h.inner r hr
  constructor
  · intro p hp
    rw [List.mem_map] at hp
    obtain ⟨q, hq, rfl⟩ := hp
    exact h1 q hq
  · rw [List.map_map]; exact h2

/-- every amplitude is read once for every new value of the target bits -/
theorem sum_putBits {B n : Nat} {ts : List Nat} (hB : B * 2 ^ n ≤ 2 ^ 64) (h : TargetsOK ts) (hn : ∀ q ∈ ts, q < n) (f : U64 → ℝ) :
    ∑ j ∈ indices (B * 2 ^ n), ∑ x ∈ Finset.range (2 ^ ts.length), f (putBits j ts x) =
      (2 ^ ts.length : ℝ) * ∑ j ∈ indices (B * 2 ^ n), f j := by
  have hI : ∀ j x, j ∈ indices (B * 2 ^ n) → putBits j ts x ∈ indices (B * 2 ^ n) := by
    intro j x hj
    rw [mem_indices hB] at hj ⊢
    exact (putBits_inState h.lt hn j x).2 hj
  have := sum_pairs h (indices (B * 2 ^ n)) hI (fun _ b _ _ => f b)
  rw [this, Finset.mul_sum]
  apply Finset.sum_congr rfl
  intro j _
  rw [Finset.sum_const, Finset.card_range, nsmul_eq_mul]
  push_cast
  rfl

/-- from the errors of the amplitudes to the error of the state, rows of any length -/
theorem drift_rows {B n : Nat} {ts : List Nat} (hB : B * 2 ^ n ≤ 2 ^ 64) (h : TargetsOK ts) (hn : ∀ q ∈ ts, q < n) {d ψ : U64 → ℂ}
    {C D : ℝ} (hd : ∀ j, InState (B * 2 ^ n) j → ‖d j‖ ≤ C * (∑ x ∈ Finset.range (2 ^ ts.length), ‖ψ (putBits j ts x)‖) + D) :
    normSq (B * 2 ^ n) d ≤ 2 * (C ^ 2 * (2 ^ ts.length) ^ 2 * normSq (B * 2 ^ n) ψ) + 2 * (D ^ 2 * ((B * 2 ^ n : Nat) : ℝ)) := by
  have h1 : ∀ j ∈ indices (B * 2 ^ n), ‖d j‖ ^ 2 ≤
      2 * C ^ 2 * 2 ^ ts.length * (∑ x ∈ Finset.range (2 ^ ts.length), ‖ψ (putBits j ts x)‖ ^ 2) + 2 * D ^ 2 := by
    intro j hj
    rw [mem_indices hB] at hj
    have h2 := pow_le_pow_left₀ (norm_nonneg _) (hd j hj) 2
    have h3 := sq_sum_le_card_mul_sum_sq (s := Finset.range (2 ^ ts.length)) (f := fun x => ‖ψ (putBits j ts x)‖)
    rw [Finset.card_range] at h3
    push_cast at h3
    have h4 := mul_le_mul_of_nonneg_left h3 (sq_nonneg C)
    nlinarith [sq_nonneg (C * (∑ x ∈ Finset.range (2 ^ ts.length), ‖ψ (putBits j ts x)‖) - D)]
  have h5 : (2 * D ^ 2) * ((indices (B * 2 ^ n)).card : ℝ) ≤ (2 * D ^ 2) * ((B * 2 ^ n : Nat) : ℝ) :=
    mul_le_mul_of_nonneg_left (by exact_mod_cast card_indices') (by positivity)
  rw [normSq_norm, normSq_norm]
  refine le_trans (Finset.sum_le_sum h1) ?_
  simp only [Finset.sum_add_distrib, ← Finset.mul_sum, Finset.sum_const, nsmul_eq_mul]
  rw [sum_putBits hB h hn fun j => ‖ψ j‖ ^ 2]
  linarith

section
variable {F : Type} [Zero F] [One F] [Add F] [Sub F] [Mul F] [Neg F] {lib : FloatLib F} {val : F → ℝ} {u w η Ω ε : ℝ}
  {B n : Nat} {t c v : U64}

local notation "⟪" x "⟫" => cval val x

/-- one more term of a row of any length -/
theorem step_err (A : Accurate lib val u w η Ω) (hε : u + η ≤ ε) {i T : ℝ} (hi : 0 ≤ i) (hiε : (i + 1) * ε ≤ 1 / 400) (hΩ : 16 * (i + 1) ≤ Ω)
    {s a : Cx F} {X z : ℂ} (hs : ‖⟪s⟫ - X‖ ≤ 20 * i * (ε * T + η)) (hX : ‖X‖ ≤ T) (hT : T ≤ 4 * i) (hz : ‖z‖ ≤ 1) (ha : ‖⟪a⟫‖ ≤ 4) :
    ‖⟪s + castC lib z * a⟫ - (X + z * ⟪a⟫)‖ ≤ 20 * (i + 1) * (ε * (T + ‖⟪a⟫‖) + η) := by
  have hu0 := A.u_nonneg
  have hη0 := A.eta_nonneg
  have hε0 : 0 ≤ ε := by linarith
  have hε4 : ε ≤ 1 / 400 := by nlinarith
  have hT0 : 0 ≤ T := le_trans (norm_nonneg _) hX
  have na := norm_nonneg ⟪a⟫
  have iε : i * ε ≤ 1 / 400 := by nlinarith
  have hp := coef_mul A (a := a) (by linarith) (by linarith) (castC_near A hz) hz (by linarith) (by linarith)
  have hp' : ‖⟪castC lib z * a⟫ - z * ⟪a⟫‖ ≤ 9 * (ε * ‖⟪a⟫‖) + 5 * η := by
    refine le_trans hp ?_
    have : (2 * (u + η) + 7 * u) * ‖⟪a⟫‖ ≤ 9 * ε * ‖⟪a⟫‖ := mul_le_mul_of_nonneg_right (by linarith) na
    linarith
  have hY : ‖z * ⟪a⟫‖ ≤ ‖⟪a⟫‖ := by rw [norm_mul]; exact mul_le_of_le_one_left na hz
  have εa : ε * ‖⟪a⟫‖ ≤ ‖⟪a⟫‖ / 400 := by nlinarith
  have εT : i * (ε * T) ≤ T / 400 := by nlinarith
  have iη : i * η ≤ 1 / 400 := by nlinarith
  have iη' : i * η ≤ i / 400 := by nlinarith
  have e1 : 20 * i * (ε * T + η) ≤ T / 20 + 20 * (i * η) := by nlinarith
  have ns : ‖⟪s⟫‖ ≤ Ω := by
    have := norm_add_le (⟪s⟫ - X) X
    rw [sub_add_cancel] at this
    linarith
  have np : ‖⟪castC lib z * a⟫‖ ≤ Ω := by
    have := norm_add_le (⟪castC lib z * a⟫ - z * ⟪a⟫) (z * ⟪a⟫)
    rw [sub_add_cancel] at this
    have := A.big
    linarith
  have hadd := add_err_big A s (castC lib z * a) ns np
  have hsum : ‖⟪s⟫ + ⟪castC lib z * a⟫ - (X + z * ⟪a⟫)‖ ≤ 20 * i * (ε * T + η) + (9 * (ε * ‖⟪a⟫‖) + 5 * η) := by
    rw [show ⟪s⟫ + ⟪castC lib z * a⟫ - (X + z * ⟪a⟫) = (⟪s⟫ - X) + (⟪castC lib z * a⟫ - z * ⟪a⟫) by ring]
    exact le_trans (norm_add_le _ _) (add_le_add hs hp')
  have hnorm : ‖⟪s⟫ + ⟪castC lib z * a⟫‖ ≤ 2 * (T + ‖⟪a⟫‖) + 20 * (i * η) + 5 * η := by
    have h1 := norm_add_le (⟪s⟫ + ⟪castC lib z * a⟫ - (X + z * ⟪a⟫)) (X + z * ⟪a⟫)
    rw [sub_add_cancel] at h1
    have h2 := norm_add_le X (z * ⟪a⟫)
    linarith
  have h3 := norm_add_le (⟪s + castC lib z * a⟫ - (⟪s⟫ + ⟪castC lib z * a⟫)) (⟪s⟫ + ⟪castC lib z * a⟫ - (X + z * ⟪a⟫))
  rw [sub_add_sub_cancel] at h3
  have h4 : 2 * u * ‖⟪s⟫ + ⟪castC lib z * a⟫‖ ≤ 2 * ε * (2 * (T + ‖⟪a⟫‖) + 20 * (i * η) + 5 * η) :=
    mul_le_mul (by linarith) hnorm (norm_nonneg _) (by linarith)
  have h5 : ε * (i * η) ≤ η / 400 := by nlinarith
  have h6 : ε * η ≤ η / 400 := by nlinarith
  have h7 : 0 ≤ i * (ε * ‖⟪a⟫‖) := by positivity
  have h8 : 0 ≤ ε * T := by positivity
  have h9 : 0 ≤ ε * ‖⟪a⟫‖ := by positivity
  nlinarith

/-- a row of any length -/
theorem rows_err (A : Accurate lib val u w η Ω) (hε : u + η ≤ ε) (b : Nat → Cx F) (l : List (ℂ × Nat)) (hz : ∀ p ∈ l, ‖p.1‖ ≤ 1)
    (hb : ∀ p ∈ l, ‖⟪b p.2⟫‖ ≤ 4) {i T : ℝ} (hi : 0 ≤ i) (hiε : (i + l.length) * ε ≤ 1 / 400) (hΩ : 16 * (i + l.length) ≤ Ω)
    {s : Cx F} {X : ℂ} (hs : ‖⟪s⟫ - X‖ ≤ 20 * i * (ε * T + η)) (hX : ‖X‖ ≤ T) (hT : T ≤ 4 * i) :
    ‖⟪l.foldl (fun s p => s + castC lib p.1 * b p.2) s⟫ - l.foldl (fun s p => s + p.1 * ⟪b p.2⟫) X‖ ≤
      20 * (i + l.length) * (ε * (T + (l.map fun p => ‖⟪b p.2⟫‖).sum) + η) := by
  have hu0 := A.u_nonneg
  have hη0 := A.eta_nonneg
  have hε0 : 0 ≤ ε := by linarith
  induction l generalizing i T s X with
  | nil => simpa using hs
  | cons p l ih =>
    rw [List.length_cons] at hiε hΩ ⊢
    push_cast at hiε hΩ ⊢
    have hl : (0 : ℝ) ≤ l.length := Nat.cast_nonneg _
    have h1 := step_err A hε hi (by nlinarith) (by linarith) hs hX hT (hz p List.mem_cons_self) (hb p List.mem_cons_self)
    have hY : ‖p.1 * ⟪b p.2⟫‖ ≤ ‖⟪b p.2⟫‖ := by
      rw [norm_mul]; exact mul_le_of_le_one_left (norm_nonneg _) (hz p List.mem_cons_self)
    have := ih (fun p hp => hz p (List.mem_cons_of_mem _ hp)) (fun p hp => hb p (List.mem_cons_of_mem _ hp)) (i := i + 1)
      (T := T + ‖⟪b p.2⟫‖) (by linarith) (by rw [show i + 1 + (l.length : ℝ) = i + (l.length + 1) by ring]; exact hiε)
      (by linarith) h1 (le_trans (norm_add_le _ _) (by linarith)) (by have := hb p List.mem_cons_self; linarith)
    rw [List.foldl_cons, List.foldl_cons, List.map_cons, List.sum_cons]
    rw [show i + ((l.length : ℝ) + 1) = i + 1 + l.length by ring, ← add_assoc]
    exact this

/-- matrices of any size -/
theorem closeTo_rows (A : Accurate lib val u w η Ω) (hε : u + η ≤ ε) {ts : List Nat} (hM : MasksOK B n t c v) (hn : n < 64) (ht : MaskOf t ts)
    (hts : ∀ q ∈ ts, q < n) (hiε : 2 ^ ts.length * ε ≤ 1 / 400) (hΩ : 16 * 2 ^ ts.length ≤ Ω)
    (rows : Fin (2 ^ ts.length) → List (ℂ × Nat)) (hcols : ∀ r, ∀ p ∈ rows r, p.2 < 2 ^ ts.length)
    (hnd : ∀ r, ((rows r).map Prod.snd).Nodup) (hz : ∀ r, ∀ p ∈ rows r, ‖p.1‖ ≤ 1) :
    CloseTo (B * 2 ^ n) val ((2 ^ ts.length) ^ 2 * ε) ((2 ^ ts.length) ^ 2 * η)
      (.outOfPlace (B * 2 ^ n) _ (2 ^ ts.length) (outOfPlaceInit c v (B * 2 ^ n))
        (outOfPlaceUpdate n t c v (2 ^ ts.length) (fun r => (rows r).map fun p => (castC lib p.1, p.2)) (B * 2 ^ n)))
      (.outOfPlace (B * 2 ^ n) _ (2 ^ ts.length) (outOfPlaceInit c v (B * 2 ^ n))
        (outOfPlaceUpdate n t c v (2 ^ ts.length) rows (B * 2 ^ n))) := by
  have hu0 := A.u_nonneg
  have hη0 := A.eta_nonneg
  have hε0 : 0 ≤ ε := by linarith
  intro m hm
  refine ⟨_, _, rows_any hM hn ht hts _ (by
    intro r p hp
    rw [List.mem_map] at hp
    obtain ⟨q, hq, rfl⟩ := hp
    exact hcols r q hq) m, rows_any hM hn ht hts rows hcols _, ?_⟩
  have hN0 : (0 : ℝ) < 2 ^ ts.length := by positivity
  have hN1 : (1 : ℝ) ≤ 2 ^ ts.length := one_le_pow₀ (by norm_num)
  have key := drift_rows (n := n) hM.size ht.targetsOK hts
    (d := fun j => ⟪rowsOut (B * 2 ^ n) c v ts (fun r => (rows r).map fun p => ((castC lib p.1 : Cx F), p.2)) m j⟫ -
      rowsOut (B * 2 ^ n) c v ts rows (fun j => ⟪m j⟫) j)
    (ψ := fun j => ⟪m j⟫) (C := 20 * 2 ^ ts.length * ε) (D := 20 * 2 ^ ts.length * η) (by
      intro j hj
      unfold rowsOut
      by_cases hc : InState (B * 2 ^ n) j ∧ j &&& c = v
      · simp only [if_pos hc]
        rw [List.foldl_map]
        generalize hr : rows ⟨getBits j ts, getBits_lt j ts⟩ = l
        have hlen : l.length ≤ 2 ^ ts.length := by
          have h1 := hnd ⟨getBits j ts, getBits_lt j ts⟩
          have h2 := (List.subperm_of_subset h1 (l₂ := List.range (2 ^ ts.length)) (by
            intro x hx
            rw [List.mem_map] at hx
            obtain ⟨p, hp, rfl⟩ := hx
            exact List.mem_range.2 (hcols _ p hp))).length_le
          rw [hr] at h2
          simpa using h2
        have hlen' : (l.length : ℝ) ≤ 2 ^ ts.length := by exact_mod_cast hlen
        have hsum : (l.map fun p => ‖⟪m (putBits j ts p.2)⟫‖).sum ≤ ∑ x ∈ Finset.range (2 ^ ts.length), ‖⟪m (putBits j ts x)⟫‖ := by
          have h1 := hnd ⟨getBits j ts, getBits_lt j ts⟩
          rw [hr] at h1
          have e : (l.map fun p => ‖⟪m (putBits j ts p.2)⟫‖).sum = ∑ x ∈ (l.map Prod.snd).toFinset, ‖⟪m (putBits j ts x)⟫‖ := by
            rw [List.sum_toFinset _ h1, List.map_map]; rfl
          rw [e]
          apply Finset.sum_le_sum_of_subset_of_nonneg
          · intro x hx
            rw [List.mem_toFinset, List.mem_map] at hx
            obtain ⟨p, hp, rfl⟩ := hx
            exact Finset.mem_range.2 (hcols ⟨getBits j ts, getBits_lt j ts⟩ p (by rw [hr]; exact hp))
          · intro _ _ _; exact norm_nonneg _
        have hz' := hz ⟨getBits j ts, getBits_lt j ts⟩
        rw [hr] at hz'
        have := rows_err A hε (fun x => m (putBits j ts x)) l hz'
          (fun p _ => hm _ ((putBits_inState ht.targetsOK.lt hts j _).2 hj)) (i := 0) (T := 0) le_rfl
          (by rw [zero_add]; exact le_trans (mul_le_mul_of_nonneg_right hlen' hε0) hiε) (by linarith) (s := 0) (X := 0)
          (by rw [cval_zero A]; simp) (by simp) (by simp)
        refine le_trans this ?_
        rw [zero_add, zero_add]
        have hS0 : 0 ≤ (l.map fun p => ‖⟪m (putBits j ts p.2)⟫‖).sum := List.sum_nonneg (by
          intro x hx
          rw [List.mem_map] at hx
          obtain ⟨p, -, rfl⟩ := hx
          exact norm_nonneg _)
        calc _ ≤ 20 * 2 ^ ts.length * (ε * (l.map fun p => ‖⟪m (putBits j ts p.2)⟫‖).sum + η) :=
              mul_le_mul_of_nonneg_right (by linarith) (by positivity)
          _ ≤ 20 * 2 ^ ts.length * (ε * (∑ x ∈ Finset.range (2 ^ ts.length), ‖⟪m (putBits j ts x)⟫‖) + η) :=
              mul_le_mul_of_nonneg_left (by nlinarith) (by positivity)
          _ = _ := by ring
      · simp only [if_neg hc, sub_self, norm_zero]
        positivity)
  refine drift_sqrt (normSq_nonneg' _ _) (Nat.cast_nonneg _) (by positivity) (by positivity) (by norm_num) (le_trans key ?_)
  have e3 := mul_nonneg (sq_nonneg ε) (normSq_nonneg' (B * 2 ^ n) fun j => ⟪m j⟫)
  have e4 := mul_nonneg (sq_nonneg η) (Nat.cast_nonneg (α := ℝ) (B * 2 ^ n))
  generalize (2 : ℝ) ^ ts.length = N at *
  generalize normSq (B * 2 ^ n) (fun j => ⟪m j⟫) = S at *
  generalize ((B * 2 ^ n : Nat) : ℝ) = D at *
  have h2 : N ^ 2 ≤ N ^ 4 := pow_le_pow_right₀ hN1 (by norm_num)
  have h5 : 0 ≤ N ^ 4 * (ε ^ 2 * S) := by positivity
  have h6 : N ^ 2 * (η ^ 2 * D) ≤ N ^ 4 * (η ^ 2 * D) := mul_le_mul_of_nonneg_right h2 e4
  have h7 : 0 ≤ N ^ 4 * (η ^ 2 * D) := by positivity
  nlinarith

end

end Verif.Proofs
