import Verif.Proofs.FloatApprox
import Verif.Proofs.StateOps

/-! # Probabilities, inner products and expectation values in floating-point arithmetic -/

namespace Verif.Proofs
open Verif Verif.Spec Verif.Model
attribute [-simp] BitVec.getLsbD_eq_getElem

theorem foldlM_ok_inv {α R : Type} [Add R] {f : α → Res R} : ∀ {l : List α} {a r : R},
    l.foldlM (fun acc i => do let x ← f i; pure (acc + x)) a = .ok r → ∀ i ∈ l, ∃ x, f i = .ok x
  | [], _, _, _ => by simp
  | j :: l, a, r, h => by
    rw [List.foldlM_cons] at h
    cases hf : f j with
    | error e => rw [hf] at h; cases h
    | ok x =>
      rw [hf] at h
      have ih := foldlM_ok_inv (l := l) h
      intro i hi
      rcases List.mem_cons.1 hi with rfl | hi
      · exact ⟨x, hf⟩
      · exact ih i hi

/-- a reduction that succeeds reads only allocated elements -/
theorem reduceSum_inv {R : Type} [AddCommMonoid R] {N : Nat} {f : U64 → Res R} {P : R} (h : reduceSum N f = .ok P) :
    ∃ g : Nat → R, (∀ i, i < N → f (BitVec.ofNat 64 i) = .ok (g i)) ∧ P = ∑ i ∈ Finset.range N, g i := by
  have h1 := foldlM_ok_inv (f := fun i => f (BitVec.ofNat 64 i)) h
  have : ∀ i, ∃ x, i < N → f (BitVec.ofNat 64 i) = .ok x := by
    intro i
    by_cases hi : i < N
    · obtain ⟨x, hx⟩ := h1 i (List.mem_range.2 hi)
      exact ⟨x, fun _ => hx⟩
    · exact ⟨0, fun h => absurd h hi⟩
  choose g hg using this
  refine ⟨g, hg, ?_⟩
  rw [reduceSum_ok hg] at h
  exact (Except.ok.inj h).symm

theorem sum_map_range {R : Type} [AddCommMonoid R] (N : Nat) (g : Nat → R) : ((List.range N).map g).sum = ∑ i ∈ Finset.range N, g i := rfl

theorem reducesTo_exists {R : Type} [_root_.Zero R] [Add R] (l : List R) : ∃ r, ReducesTo l r := by
  induction l with
  | nil => exact ⟨_, .init⟩
  | cons x l ih => obtain ⟨r, h⟩ := ih; exact ⟨_, .item x h⟩

theorem rangeReduction_ok {R : Type} [_root_.Zero R] [Add R] {N : Nat} {f : U64 → Res R} {g : Nat → R}
    (h : ∀ i, i < N → f (BitVec.ofNat 64 i) = .ok (g i)) (r : Res R) :
    RangeReduction N f r ↔ ∃ s, r = .ok s ∧ ReducesTo ((List.range N).map g) s :=
  reduction_ok (fun a ha => h a (List.mem_range.1 ha)) r

section
variable {F : Type} [_root_.Zero F] [One F] [Add F] [Sub F] [Mul F] [Neg F] {lib : FloatLib F} {val : F → ℝ} {u w η Ω : ℝ}

local notation "⟪" x "⟫" => cval val x

theorem part_range {z : Cx F} (hz : ‖⟪z⟫‖ ≤ 4) : |val z.re| ≤ 4 ∧ |val z.im| ≤ 4 :=
  ⟨(Complex.abs_re_le_norm ⟪z⟫).trans hz, (Complex.abs_im_le_norm ⟪z⟫).trans hz⟩

/-- a product of two exact numbers of magnitude at most 4 -/
theorem appr_prod (A : Accurate lib val u w η Ω) (hu : u ≤ 1 / 64) (hη : η ≤ 1 / 64) {x y : F} (hx : |val x| ≤ 4) (hy : |val y| ≤ 4) :
    Appr val u 1 (x * y) (val x * val y) (|val x| * |val y|) η ∧ |val (x * y)| ≤ 17 := by
  have h := Appr.mul A (Appr.exact x (u := u)) (Appr.exact y (u := u)) (by linarith) (by linarith)
  have h' := h.mono A.u_nonneg (le_refl 1) le_rfl (δ' := η) (by simp)
  refine ⟨h', ?_⟩
  have := h'.abs_le
  have e : |val x| * |val y| ≤ 16 := by nlinarith [abs_nonneg (val x), abs_nonneg (val y)]
  have : (1 + u) ^ 1 * (|val x| * |val y|) ≤ (1 + 1 / 64) * 16 := by
    rw [pow_one]
    exact mul_le_mul (by linarith) e (by positivity) (by norm_num)
  linarith

theorem squaredC_appr (A : Accurate lib val u w η Ω) (hu : u ≤ 1 / 64) (hη : η ≤ 1 / 64) {z : Cx F} (hz : ‖⟪z⟫‖ ≤ 4) :
    Appr val u 2 (squaredC z) (Complex.normSq ⟪z⟫) (Complex.normSq ⟪z⟫) ((1 + u) * (2 * η)) := by
  obtain ⟨h1, h2⟩ := part_range hz
  have hΩ := A.big
  obtain ⟨a1, a2⟩ := appr_prod A hu hη h1 h1
  obtain ⟨b1, b2⟩ := appr_prod A hu hη h2 h2
  have := Appr.add A a1 b1 (by linarith) (by linarith)
  have e : Complex.normSq ⟪z⟫ = val z.re * val z.re + val z.im * val z.im := Complex.normSq_apply _
  rw [e]
  rw [← abs_mul, ← abs_mul, abs_mul_self, abs_mul_self] at this
  rw [two_mul]
  exact this

/-- a sum of squared amplitudes -/
theorem squared_reduction (A : Accurate lib val u w η Ω) (Z : AddZero val Ω) (hu : u ≤ 1 / 64) (hη : η ≤ 1 / 64) {dim N : Nat} (hN : 1 ≤ N) {m : U64 → Cx F}
    (hm : ∀ j : U64, j.toNat < dim → ‖⟪m j⟫‖ ≤ 4) {idx : U64 → U64} {P : ℝ}
    (hP : reduceSum N (fun i => readSq dim (fun j => ⟪m j⟫) (idx i)) = .ok P)
    (hΩ : (1 + u) ^ (N + 2) * (P + 2 * N * η) ≤ Ω) (r : Res F) :
    RangeReduction N (fun i => readSqF dim m (idx i)) r ↔
      ∃ s, r = .ok s ∧ ReducesTo ((List.range N).map fun i => squaredC (m (idx (BitVec.ofNat 64 i)))) s ∧ |val s - P| ≤ sumErr u η N P := by
  have hu0 := A.u_nonneg
  have hη0 := A.eta_nonneg
  obtain ⟨g, hg, hPg⟩ := reduceSum_inv hP
  have hr : ∀ i, i < N → (idx (BitVec.ofNat 64 i)).toNat < dim ∧ g i = Complex.normSq ⟪m (idx (BitVec.ofNat 64 i))⟫ := by
    intro i hi
    have := hg i hi
    unfold readSq readAt at this
    split at this
    · next h => exact ⟨h, (Except.ok.inj this).symm⟩
    · cases this
  rw [rangeReduction_ok (g := fun i => squaredC (m (idx (BitVec.ofNat 64 i))))]
  · have key : ∀ s, ReducesTo ((List.range N).map fun i => squaredC (m (idx (BitVec.ofNat 64 i)))) s → |val s - P| ≤ sumErr u η N P := by
      intro s hs
      have hgg : ((List.range N).map g).sum = P := by rw [hPg]; rfl
      have hP0 : 0 ≤ P := by
        rw [hPg]
        exact Finset.sum_nonneg fun i hi => by rw [(hr i (Finset.mem_range.1 hi)).2]; exact Complex.normSq_nonneg _
      have hδ : ((List.range N).map fun _ => (1 + u) * (2 * η)).sum = N * ((1 + u) * (2 * η)) := by simp
      have := reducesTo_appr A Z (k := 2) (g := g) (G := g) (δ := fun _ => (1 + u) * (2 * η))
        (fun i hi => by
          obtain ⟨h1, h2⟩ := hr i (List.mem_range.1 hi)
          rw [h2]
          exact squaredC_appr A hu hη (hm _ h1)) hs
        (by
          rw [List.length_range, hgg, hδ]
          refine le_trans ?_ hΩ
          rw [pow_add (1 + u) N 2, mul_assoc]
          refine mul_le_mul_of_nonneg_left ?_ (by positivity)
          rw [mul_add]
          refine add_le_add le_rfl ?_
          have : 0 ≤ (N : ℝ) * η := by positivity
          nlinarith [mul_nonneg hu0 this, mul_nonneg hu0 (mul_nonneg hu0 this)])
      rw [List.length_range, hgg, hδ] at this
      unfold sumErr
      have e1 : N - 1 + 2 = N + 1 := by omega
      have e2 : (1 + u) ^ N = (1 + u) ^ (N - 1) * (1 + u) := by rw [← pow_succ]; congr 1; omega
      rw [e1] at this
      rw [e2]
      linarith
    constructor
    · rintro ⟨s, h1, h2⟩; exact ⟨s, h1, h2, key s h2⟩
    · rintro ⟨s, h1, h2, -⟩; exact ⟨s, h1, h2⟩
  · intro i hi
    unfold readSqF
    rw [readAt_ok (hr i hi).1]
    rfl

theorem reducesTo_re {l : List (Cx F)} {r : Cx F} (h : ReducesTo l r) : ReducesTo (l.map Cx.re) r.re := by
  induction h with
  | init => exact .init
  | item x _ ih => exact .item x.re ih
  | join _ _ ih ih' => rw [List.map_append]; exact .join ih ih'
  | perm hp _ ih => exact .perm (hp.map _) ih

theorem reducesTo_im {l : List (Cx F)} {r : Cx F} (h : ReducesTo l r) : ReducesTo (l.map Cx.im) r.im := by
  induction h with
  | init => exact .init
  | item x _ ih => exact .item x.im ih
  | join _ _ ih ih' => rw [List.map_append]; exact .join ih ih'
  | perm hp _ ih => exact .perm (hp.map _) ih

theorem parts_cs (x y : ℂ) : |x.re| * |y.re| + |x.im| * |y.im| ≤ ‖x‖ * ‖y‖ ∧ |x.re| * |y.im| + |x.im| * |y.re| ≤ ‖x‖ * ‖y‖ := by
  have hx : ‖x‖ ^ 2 = |x.re| ^ 2 + |x.im| ^ 2 := by rw [Complex.sq_norm, Complex.normSq_apply, sq_abs, sq_abs]; ring
  have hy : ‖y‖ ^ 2 = |y.re| ^ 2 + |y.im| ^ 2 := by rw [Complex.sq_norm, Complex.normSq_apply, sq_abs, sq_abs]; ring
  constructor <;> refine abs_le_of_sq_le_sq' ?_ (by positivity) |>.2 <;> rw [mul_pow, hx, hy] <;>
    nlinarith [sq_nonneg (|x.re| * |y.im| - |x.im| * |y.re|), sq_nonneg (|x.re| * |y.re| - |x.im| * |y.im|)]

/-- the product `conj(x) * y` in floating-point arithmetic -/
theorem conjMul_appr (A : Accurate lib val u w η Ω) (hu : u ≤ 1 / 64) (hη : η ≤ 1 / 64) {x y : Cx F} (hx : ‖⟪x⟫‖ ≤ 4) (hy : ‖⟪y⟫‖ ≤ 4) :
    Appr val u 2 (conjC x * y).re ((starRingEnd ℂ) ⟪x⟫ * ⟪y⟫).re (‖⟪x⟫‖ * ‖⟪y⟫‖) ((1 + u) * (2 * η)) ∧
    Appr val u 2 (conjC x * y).im ((starRingEnd ℂ) ⟪x⟫ * ⟪y⟫).im (‖⟪x⟫‖ * ‖⟪y⟫‖) ((1 + u) * (2 * η)) := by
  obtain ⟨x1, x2⟩ := part_range hx
  obtain ⟨y1, y2⟩ := part_range hy
  have hΩ := A.big
  have x3 : |val (-x.im)| ≤ 4 := by rwa [A.neg, abs_neg]
  obtain ⟨a1, a2⟩ := appr_prod A hu hη x1 y1
  obtain ⟨b1, b2⟩ := appr_prod A hu hη x3 y2
  obtain ⟨c1, c2⟩ := appr_prod A hu hη x1 y2
  obtain ⟨d1, d2⟩ := appr_prod A hu hη x3 y1
  obtain ⟨g1, g2⟩ := parts_cs ⟪x⟫ ⟪y⟫
  have s1 := (Appr.sub A a1 b1 (by linarith) (by linarith)).mono A.u_nonneg le_rfl (G' := ‖⟪x⟫‖ * ‖⟪y⟫‖) (δ' := (1 + u) * (2 * η))
    (by rw [A.neg, abs_neg]; exact g1) (le_of_eq (by rw [two_mul]))
  have s2 := (Appr.add A c1 d1 (by linarith) (by linarith)).mono A.u_nonneg le_rfl (G' := ‖⟪x⟫‖ * ‖⟪y⟫‖) (δ' := (1 + u) * (2 * η))
    (by rw [A.neg, abs_neg]; exact g2) (le_of_eq (by rw [two_mul]))
  have e1 : ((starRingEnd ℂ) ⟪x⟫ * ⟪y⟫).re = val x.re * val y.re - val (-x.im) * val y.im := by
    rw [Complex.mul_re, Complex.conj_re, Complex.conj_im, A.neg]; rfl
  have e2 : ((starRingEnd ℂ) ⟪x⟫ * ⟪y⟫).im = val x.re * val y.im + val (-x.im) * val y.re := by
    rw [Complex.mul_im, Complex.conj_re, Complex.conj_im, A.neg]; rfl
  rw [e1, e2]
  exact ⟨s1, s2⟩

/-- inner products -/
theorem inner_reduction (A : Accurate lib val u w η Ω) (Z : AddZero val Ω) (hu : u ≤ 1 / 64) (hη : η ≤ 1 / 64) {n : Nat} (hn : n ≤ 63) {a b : U64 → Cx F}
    (ha : ∀ j : U64, j.toNat < 2 ^ n → ‖⟪a j⟫‖ ≤ 4) (hb : ∀ j : U64, j.toNat < 2 ^ n → ‖⟪b j⟫‖ ≤ 4) {S : ℝ}
    (hS : S = ∑ j ∈ indices (2 ^ n), ‖⟪a j⟫‖ * ‖⟪b j⟫‖)
    (hΩ : (1 + u) ^ (2 ^ n + 2) * (S + 2 * ((2 ^ n : ℕ) : ℝ) * η) ≤ Ω) (r : Res (Cx F)) :
    InnerProductF n n a b r ↔
      ∃ s, r = .ok s ∧ ReducesTo ((List.range (2 ^ n)).map fun i => conjC (a (BitVec.ofNat 64 i)) * b (BitVec.ofNat 64 i)) s ∧
        |val s.re - (inner (2 ^ n) (fun j => ⟪a j⟫) (fun j => ⟪b j⟫)).re| ≤ sumErr u η (2 ^ n) S ∧
        |val s.im - (inner (2 ^ n) (fun j => ⟪a j⟫) (fun j => ⟪b j⟫)).im| ≤ sumErr u η (2 ^ n) S := by
  have hu0 := A.u_nonneg
  have hη0 := A.eta_nonneg
  have hlt : ∀ i, i < 2 ^ n → (BitVec.ofNat 64 i).toNat < 2 ^ n := fun i hi => by rw [toNat_ofNat_pow hn hi]; exact hi
  unfold InnerProductF
  rw [if_neg (fun h => h rfl), rangeReduction_ok (g := fun i => conjC (a (BitVec.ofNat 64 i)) * b (BitVec.ofNat 64 i))]
  · have hN : 1 ≤ 2 ^ n := Nat.one_le_two_pow
    generalize hNe : 2 ^ n = N at *
    have hd : N ≤ 2 ^ 64 := hNe ▸ pow64 hn
    have hSr : ((List.range N).map fun i => ‖⟪a (BitVec.ofNat 64 i)⟫‖ * ‖⟪b (BitVec.ofNat 64 i)⟫‖).sum = S := by
      rw [hS, sum_indices hd]; rfl
    have hδ : ((List.range N).map fun _ => (1 + u) * (2 * η)).sum = N * ((1 + u) * (2 * η)) := by simp
    have hΩ' : (1 + u) ^ (List.range N).length * ((1 + u) ^ 2 * ((List.range N).map fun i => ‖⟪a (BitVec.ofNat 64 i)⟫‖ * ‖⟪b (BitVec.ofNat 64 i)⟫‖).sum +
        ((List.range N).map fun _ => (1 + u) * (2 * η)).sum) ≤ Ω := by
      rw [List.length_range, hSr, hδ]
      refine le_trans ?_ hΩ
      rw [pow_add (1 + u) N 2, mul_assoc]
      refine mul_le_mul_of_nonneg_left ?_ (by positivity)
      rw [mul_add]
      refine add_le_add le_rfl ?_
      have : 0 ≤ (N : ℝ) * η := by positivity
      nlinarith [mul_nonneg hu0 this, mul_nonneg hu0 (mul_nonneg hu0 this)]
    have hE : ((1 + u) ^ ((List.range N).length - 1 + 2) - 1) * ((List.range N).map fun i => ‖⟪a (BitVec.ofNat 64 i)⟫‖ * ‖⟪b (BitVec.ofNat 64 i)⟫‖).sum +
        (1 + u) ^ ((List.range N).length - 1) * ((List.range N).map fun _ => (1 + u) * (2 * η)).sum = sumErr u η N S := by
      rw [List.length_range, hSr, hδ]
      unfold sumErr
      have e1 : N - 1 + 2 = N + 1 := by omega
      have e2 : (1 + u) ^ N = (1 + u) ^ (N - 1) * (1 + u) := by rw [← pow_succ]; congr 1; omega
      rw [e1, e2]
      ring
    have key : ∀ s, ReducesTo ((List.range N).map fun i => conjC (a (BitVec.ofNat 64 i)) * b (BitVec.ofNat 64 i)) s →
        |val s.re - (inner N (fun j => ⟪a j⟫) (fun j => ⟪b j⟫)).re| ≤ sumErr u η N S ∧
        |val s.im - (inner N (fun j => ⟪a j⟫) (fun j => ⟪b j⟫)).im| ≤ sumErr u η N S := by
      intro s hs
      have h1 := reducesTo_re hs
      have h2 := reducesTo_im hs
      rw [List.map_map] at h1 h2
      have k1 := reducesTo_appr A Z (l := List.range N) (k := 2) (g := fun i => ((starRingEnd ℂ) ⟪a (BitVec.ofNat 64 i)⟫ * ⟪b (BitVec.ofNat 64 i)⟫).re)
        (fun i hi => (conjMul_appr A hu hη (ha _ (hlt i (List.mem_range.1 hi))) (hb _ (hlt i (List.mem_range.1 hi)))).1) h1 hΩ'
      have k2 := reducesTo_appr A Z (l := List.range N) (k := 2) (g := fun i => ((starRingEnd ℂ) ⟪a (BitVec.ofNat 64 i)⟫ * ⟪b (BitVec.ofNat 64 i)⟫).im)
        (fun i hi => (conjMul_appr A hu hη (ha _ (hlt i (List.mem_range.1 hi))) (hb _ (hlt i (List.mem_range.1 hi)))).2) h2 hΩ'
      rw [hE] at k1 k2
      unfold inner
      rw [sum_indices hd, Complex.re_sum, Complex.im_sum]
      exact ⟨k1, k2⟩
    constructor
    · rintro ⟨s, h1, h2⟩; exact ⟨s, h1, h2, key s h2⟩
    · rintro ⟨s, h1, h2, -⟩; exact ⟨s, h1, h2⟩
  · intro i hi
    rw [readAt_ok (hlt i hi), readAt_ok (hlt i hi)]
    rfl

end

end Verif.Proofs
