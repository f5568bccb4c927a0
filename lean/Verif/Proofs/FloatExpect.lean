import Verif.Proofs.FloatRead

/-! # Expectation values in floating-point arithmetic -/

namespace Verif.Proofs
open Verif Verif.Spec Verif.Model
attribute [-simp] BitVec.getLsbD_eq_getElem

theorem pow_small {u : ℝ} (hu0 : 0 ≤ u) (hu : u ≤ 1 / 64) {k : Nat} (hk : k ≤ 8) : 1 ≤ (1 + u) ^ k ∧ (1 + u) ^ k ≤ 6 / 5 := by
  refine ⟨one_le_pow₀ (by linarith), ?_⟩
  calc (1 + u) ^ k ≤ (1 + 1 / 64) ^ k := pow_le_pow_left₀ (by linarith) (by linarith) k
    _ ≤ (1 + 1 / 64) ^ 8 := pow_le_pow_right₀ (by norm_num) hk
    _ ≤ 6 / 5 := by norm_num

section
variable {F : Type} [_root_.Zero F] [One F] [Add F] [Sub F] [Mul F] [Neg F] {lib : FloatLib F} {val : F → ℝ} {u w η Ω : ℝ}

local notation "⟪" x "⟫" => cval val x

/-- range of an approximation of a number of magnitude at most `g` -/
theorem Appr.range {k : Nat} {x : F} {X G δ g d : ℝ} (hu0 : 0 ≤ u) (hu : u ≤ 1 / 64) (hk : k ≤ 8) (h : Appr val u k x X G δ) (hG : G ≤ g) (hδ : δ ≤ d) :
    |val x| ≤ 6 / 5 * g + d := by
  have h1 := h.abs_le
  obtain ⟨-, h2, -⟩ := h
  have hG0 := (abs_nonneg _).trans h2
  obtain ⟨p1, p2⟩ := pow_small hu0 hu hk
  have : (1 + u) ^ k * G ≤ 6 / 5 * g := mul_le_mul p2 hG hG0 (by norm_num)
  linarith

/-- a coefficient times a number -/
theorem coef_appr (A : Accurate lib val u w η Ω) (hu : u ≤ 1 / 64) (hη : η ≤ 1 / 1000) {c C : ℝ} (hc : |c| ≤ C) (hC : C ≤ 32) {k : Nat} (hk : k ≤ 6) {t : F} {T G : ℝ}
    (ht : Appr val u k t T G (40 * η)) (hG : G ≤ 32) :
    Appr val u 8 (lib.cast c * t) (c * T) (C * G) (100 * η * (1 + C)) := by
  have hu0 := A.u_nonneg
  have hη0 := A.eta_nonneg
  have hcC : 0 ≤ C := (abs_nonneg _).trans hc
  have hG0 : 0 ≤ G := (abs_nonneg _).trans ht.2.1
  have hc' := (Appr.cast A (r := c) (by linarith)).mono hu0 le_rfl hc le_rfl
  have r1 := hc'.range hu0 hu (by norm_num) hC hη
  have r2 := ht.range hu0 hu (by omega) hG (d := 1) (by linarith)
  have h := Appr.mul A hc' ht (by linarith) (by linarith)
  refine h.mono hu0 (by omega) le_rfl ?_
  obtain ⟨p1, p2⟩ := pow_small hu0 hu (k := k) (by omega)
  have e1 : (1 + u) ^ k * G * η ≤ 6 / 5 * 32 * η := mul_le_mul_of_nonneg_right (mul_le_mul p2 hG hG0 (by norm_num)) hη0
  have e2 : (1 + u) ^ 1 * C * (40 * η) ≤ 6 / 5 * C * (40 * η) := by
    refine mul_le_mul_of_nonneg_right (mul_le_mul_of_nonneg_right ?_ hcC) (by linarith)
    exact (pow_small hu0 hu (by norm_num)).2
  have e3 : η * (40 * η) ≤ η := by nlinarith
  have e4 : (1 + u) * ((1 + u) ^ 1 * C * (40 * η) + (1 + u) ^ k * G * η + η * (40 * η)) ≤ 6 / 5 * (6 / 5 * C * (40 * η) + 6 / 5 * 32 * η + η) := by
    refine mul_le_mul (by linarith) (by linarith) (by positivity) (by norm_num)
  nlinarith [mul_nonneg hcC hη0]

/-- the product `x * conj(y)` in floating-point arithmetic -/
theorem mulConj_appr (A : Accurate lib val u w η Ω) (hu : u ≤ 1 / 64) (hη : η ≤ 1 / 64) {x y : Cx F} (hx : ‖⟪x⟫‖ ≤ 4) (hy : ‖⟪y⟫‖ ≤ 4) :
    Appr val u 2 (x * conjC y).re (⟪x⟫ * (starRingEnd ℂ) ⟪y⟫).re (‖⟪x⟫‖ * ‖⟪y⟫‖) ((1 + u) * (2 * η)) ∧
    Appr val u 2 (x * conjC y).im (⟪x⟫ * (starRingEnd ℂ) ⟪y⟫).im (‖⟪x⟫‖ * ‖⟪y⟫‖) ((1 + u) * (2 * η)) := by
  obtain ⟨x1, x2⟩ := part_range hx
  obtain ⟨y1, y2⟩ := part_range hy
  have hΩ := A.big
  have y3 : |val (-y.im)| ≤ 4 := by rwa [A.neg, abs_neg]
  obtain ⟨a1, a2⟩ := appr_prod A hu hη x1 y1
  obtain ⟨b1, b2⟩ := appr_prod A hu hη x2 y3
  obtain ⟨c1, c2⟩ := appr_prod A hu hη x1 y3
  obtain ⟨d1, d2⟩ := appr_prod A hu hη x2 y1
  obtain ⟨g1, g2⟩ := parts_cs ⟪x⟫ ⟪y⟫
  have s1 := (Appr.sub A a1 b1 (by linarith) (by linarith)).mono A.u_nonneg le_rfl (G' := ‖⟪x⟫‖ * ‖⟪y⟫‖) (δ' := (1 + u) * (2 * η))
    (by rw [A.neg, abs_neg]; exact g1) (le_of_eq (by rw [two_mul]))
  have s2 := (Appr.add A c1 d1 (by linarith) (by linarith)).mono A.u_nonneg le_rfl (G' := ‖⟪x⟫‖ * ‖⟪y⟫‖) (δ' := (1 + u) * (2 * η))
    (by rw [A.neg, abs_neg]; exact g2) (le_of_eq (by rw [two_mul]))
  have e1 : (⟪x⟫ * (starRingEnd ℂ) ⟪y⟫).re = val x.re * val y.re - val x.im * val (-y.im) := by
    rw [Complex.mul_re, Complex.conj_re, Complex.conj_im, A.neg]; rfl
  have e2 : (⟪x⟫ * (starRingEnd ℂ) ⟪y⟫).im = val x.re * val (-y.im) + val x.im * val y.re := by
    rw [Complex.mul_im, Complex.conj_re, Complex.conj_im, A.neg]; rfl
  rw [e1, e2]
  exact ⟨s1, s2⟩

theorem phase90F_val (A : Accurate lib val u w η Ω) (k : Nat) : ⟪(phase90F k : Cx F)⟫ = phase90 k ∧
    |val (phase90F k : Cx F).re| + |val (phase90F k : Cx F).im| = 1 := by
  unfold phase90F phase90
  generalize Fin.ofNat 4 k = i
  fin_cases i
  · constructor
    · show (⟨val 1, val 0⟩ : ℂ) = 1
      rw [A.one, A.zero]; rfl
    · show |val 1| + |val 0| = 1
      rw [A.one, A.zero]; norm_num
  · constructor
    · show (⟨val 0, val 1⟩ : ℂ) = imagUnit
      rw [A.one, A.zero]; rfl
    · show |val 0| + |val 1| = 1
      rw [A.one, A.zero]; norm_num
  · constructor
    · show (⟨val (-1), val 0⟩ : ℂ) = -1
      rw [A.neg, A.one, A.zero]; apply Complex.ext <;> simp
    · show |val (-1)| + |val 0| = 1
      rw [A.neg, A.one, A.zero]; norm_num
  · constructor
    · show (⟨val 0, val (-1)⟩ : ℂ) = -imagUnit
      rw [A.neg, A.one, A.zero]; apply Complex.ext <;> simp [imagUnit]
    · show |val 0| + |val (-1)| = 1
      rw [A.neg, A.one, A.zero]; norm_num

/-- the real part of `x * conj(y) * phase * 2` in floating-point arithmetic -/
theorem pairTerm_appr (A : Accurate lib val u w η Ω) (hu : u ≤ 1 / 64) (hη : η ≤ 1 / 1000) {x y : Cx F} (hx : ‖⟪x⟫‖ ≤ 4) (hy : ‖⟪y⟫‖ ≤ 4) (k : Nat) :
    Appr val u 6 (Cplx.re (timesC (x * conjC y * phase90F k) (lib.cast 2)))
      (⟪x⟫ * (starRingEnd ℂ) ⟪y⟫ * phase90 k * 2).re (2 * (‖⟪x⟫‖ * ‖⟪y⟫‖)) (40 * η) := by
  have hu0 := A.u_nonneg
  have hη0 := A.eta_nonneg
  have hH : ‖⟪x⟫‖ * ‖⟪y⟫‖ ≤ 16 := by nlinarith [norm_nonneg ⟪x⟫, norm_nonneg ⟪y⟫]
  have hH0 : 0 ≤ ‖⟪x⟫‖ * ‖⟪y⟫‖ := by positivity
  obtain ⟨p1, p2⟩ := phase90F_val A k
  obtain ⟨h1, h2⟩ := mulConj_appr A hu (hη.trans (by norm_num)) hx hy
  generalize hz : x * conjC y = z at h1 h2 ⊢
  generalize hH' : ‖⟪x⟫‖ * ‖⟪y⟫‖ = H at *
  have hδ1 : (1 + u) * (2 * η) ≤ 3 * η := by nlinarith
  replace h1 := h1.mono hu0 le_rfl le_rfl hδ1
  replace h2 := h2.mono hu0 le_rfl le_rfl hδ1
  generalize (phase90F k : Cx F) = ph at p1 p2 ⊢
  have ha : |val ph.re| ≤ 1 := by have := abs_nonneg (val ph.im); linarith
  have hb : |val ph.im| ≤ 1 := by have := abs_nonneg (val ph.re); linarith
  have r1 := h1.range hu0 hu (by norm_num) hH (d := 1) (by linarith)
  have r2 := h2.range hu0 hu (by norm_num) hH (d := 1) (by linarith)
  have m1 := Appr.mul A h1 (Appr.exact ph.re (u := u)) (by linarith) (by linarith)
  have m2 := Appr.mul A h2 (Appr.exact ph.im (u := u)) (by linarith) (by linarith)
  have d1 : (1 + u) * ((1 + u) ^ 2 * H * 0 + (1 + u) ^ 0 * |val ph.re| * (3 * η) + 3 * η * 0) + η ≤ 6 / 5 * (|val ph.re| * (3 * η)) + η := by
    have : (1 + u) * (|val ph.re| * (3 * η)) ≤ 6 / 5 * (|val ph.re| * (3 * η)) := mul_le_mul_of_nonneg_right (by linarith) (by positivity)
    simpa using this
  have d2 : (1 + u) * ((1 + u) ^ 2 * H * 0 + (1 + u) ^ 0 * |val ph.im| * (3 * η) + 3 * η * 0) + η ≤ 6 / 5 * (|val ph.im| * (3 * η)) + η := by
    have : (1 + u) * (|val ph.im| * (3 * η)) ≤ 6 / 5 * (|val ph.im| * (3 * η)) := mul_le_mul_of_nonneg_right (by linarith) (by positivity)
    simpa using this
  replace m1 := m1.mono hu0 le_rfl le_rfl d1
  replace m2 := m2.mono hu0 le_rfl le_rfl d2
  have g1 : H * |val ph.re| ≤ 16 := by nlinarith [abs_nonneg (val ph.re)]
  have g2 : H * |val ph.im| ≤ 16 := by nlinarith [abs_nonneg (val ph.im)]
  have q1 := m1.range hu0 hu (by norm_num) g1 (d := 1) (by nlinarith)
  have q2 := m2.range hu0 hu (by norm_num) g2 (d := 1) (by nlinarith)
  have s := Appr.sub A m1 m2 (by linarith) (by linarith)
  replace s := s.mono hu0 le_rfl (G' := H) (δ' := 7 * η) (by rw [← mul_add, p2, mul_one]) (by
    have e : 6 / 5 * (|val ph.re| * (3 * η)) + η + (6 / 5 * (|val ph.im| * (3 * η)) + η) = 6 / 5 * (3 * η) * (|val ph.re| + |val ph.im|) + 2 * η := by ring
    rw [e, p2]
    nlinarith)
  have r3 := s.range hu0 hu (by norm_num) hH (d := 1) (by linarith)
  have c2 := Appr.cast A (r := 2) (by norm_num)
  have r4 := c2.range hu0 hu (by norm_num) (g := 2) (d := 1) (by norm_num) (by linarith)
  have t := Appr.mul A s c2 (by linarith) (by linarith)
  replace t := t.mono hu0 le_rfl (G' := 2 * H) (δ' := 40 * η) (by rw [mul_comm]; norm_num) (by
    have w1 := (pow_small hu0 hu (k := 2 + 0 + 1 + 1) (by norm_num)).2
    have w2 := (pow_small hu0 hu (k := 1) (by norm_num)).2
    have v1 : (1 + u) ^ (2 + 0 + 1 + 1) * H * η ≤ 6 / 5 * 16 * η := mul_le_mul_of_nonneg_right (mul_le_mul w1 hH hH0 (by norm_num)) hη0
    have v2 : (1 + u) ^ 1 * |(2 : ℝ)| * (7 * η) ≤ 6 / 5 * 2 * (7 * η) := by
      rw [show |(2 : ℝ)| = 2 by norm_num]
      exact mul_le_mul_of_nonneg_right (mul_le_mul_of_nonneg_right w2 (by norm_num)) (by linarith)
    have v3 : 7 * η * η ≤ η * (7 / 1000) := by nlinarith
    have v4 : (1 + u) * ((1 + u) ^ (2 + 0 + 1 + 1) * H * η + (1 + u) ^ 1 * |(2 : ℝ)| * (7 * η) + 7 * η * η) ≤
        65 / 64 * (6 / 5 * 16 * η + 6 / 5 * 2 * (7 * η) + η * (7 / 1000)) := by
      refine mul_le_mul (by linarith) (by linarith) (by positivity) (by norm_num)
    refine (add_le_add_left v4 η).trans ?_
    linarith)
  have e : (⟪x⟫ * (starRingEnd ℂ) ⟪y⟫ * phase90 k * 2).re =
      ((⟪x⟫ * (starRingEnd ℂ) ⟪y⟫).re * val ph.re - (⟪x⟫ * (starRingEnd ℂ) ⟪y⟫).im * val ph.im) * 2 := by
    rw [← p1, Complex.mul_re, Complex.mul_re]
    simp [cval]
  rw [e]
  exact t

/-- the two indices read by a work item -/
def pairOf (p : PauliOp) (i : U64) : U64 × U64 :=
  if p.x = 0 then (i <<< 1, i <<< 1 ||| 1) else (insertZeroAt i (pivotOf p.x), insertZeroAt i (pivotOf p.x) ^^^ p.x)

theorem pairOf_mem {n : Nat} (hn1 : 1 ≤ n) (hn : n ≤ 64) {p : PauliOp} (hx : p.x.toNat < 2 ^ n) {i : Nat} (hi : i < (2 ^ n) >>> 1) :
    (pairOf p (BitVec.ofNat 64 i)).1.toNat < 2 ^ n ∧ (pairOf p (BitVec.ofNat 64 i)).2.toNat < 2 ^ n := by
  unfold pairOf
  by_cases h0 : p.x = 0
  · rw [if_pos h0, shl_one_or, shl_one_ofNat]
    exact pair_mem hn1 hn hi
  · rw [if_neg h0]
    exact half_mem (flipOK_zero hn hx) h0 hi

theorem pairOf_sum {n : Nat} (hn1 : 1 ≤ n) (hn : n ≤ 64) {p : PauliOp} (hx : p.x.toNat < 2 ^ n) (f : U64 → ℝ) :
    ∑ i ∈ Finset.range ((2 ^ n) >>> 1), (f (pairOf p (BitVec.ofNat 64 i)).1 + f (pairOf p (BitVec.ofNat 64 i)).2) =
      ∑ j ∈ indices (2 ^ n), f j := by
  unfold pairOf
  by_cases h0 : p.x = 0
  · simp only [if_pos h0]
    simp only [shl_one_or]
    simp only [shl_one_ofNat]
    rw [← sum_range_two_mul _ (fun i => f (BitVec.ofNat 64 i)), two_mul_half hn1, sum_indices (Nat.pow_le_pow_right (by norm_num) hn)]
  · simp only [if_neg h0]
    exact half_sum (flipOK_zero hn hx) h0 f

/-- one work item -/
theorem expItem_appr (A : Accurate lib val u w η Ω) (hu : u ≤ 1 / 64) (hη : η ≤ 1 / 1000) {n : Nat} (hn1 : 1 ≤ n) (hn : n ≤ 64) {m : U64 → Cx F}
    (hm : ∀ j : U64, j.toNat < 2 ^ n → ‖⟪m j⟫‖ ≤ 4) {p : PauliOp} (hx : p.x.toNat < 2 ^ n) (hc : ‖p.coef‖ ≤ 32) {i : Nat} (hi : i < (2 ^ n) >>> 1) :
    ∃ x X, expItemF lib (2 ^ n) m p (BitVec.ofNat 64 i) = .ok x ∧ expItem (2 ^ n) (fun j => ⟪m j⟫) p (BitVec.ofNat 64 i) = .ok X ∧
      Appr val u 8 x.re X.re (‖p.coef‖ * (Complex.normSq ⟪m (pairOf p (BitVec.ofNat 64 i)).1⟫ + Complex.normSq ⟪m (pairOf p (BitVec.ofNat 64 i)).2⟫))
        (100 * η * (1 + ‖p.coef‖)) ∧
      Appr val u 8 x.im X.im (‖p.coef‖ * (Complex.normSq ⟪m (pairOf p (BitVec.ofNat 64 i)).1⟫ + Complex.normSq ⟪m (pairOf p (BitVec.ofNat 64 i)).2⟫))
        (100 * η * (1 + ‖p.coef‖)) := by
  have hu0 := A.u_nonneg
  have hη0 := A.eta_nonneg
  have hΩ := A.big
  obtain ⟨m0, m1⟩ := pairOf_mem hn1 hn hx hi
  have hr := Complex.abs_re_le_norm p.coef
  have hi' := Complex.abs_im_le_norm p.coef
  unfold expItemF expItem
  by_cases h0 : p.x = 0
  · unfold pairOf at m0 m1 ⊢
    simp only [if_pos h0] at m0 m1 ⊢
    rw [readAt_ok m0, readAt_ok m1, readAt_ok m0, readAt_ok m1]
    refine ⟨_, _, rfl, rfl, ?_⟩
    generalize BitVec.ofNat 64 i <<< 1 = b0 at *
    generalize b0 ||| 1 = b1 at *
    have sq : ∀ z : ℂ, ‖z‖ * ‖z‖ = Complex.normSq z := fun z => by rw [← Complex.sq_norm, sq]
    have one : ∀ b : U64, b.toNat < 2 ^ n →
        Appr val u 2 (if oddParity (b &&& p.z) = true then -Cplx.re (conjC (m b) * m b) else Cplx.re (conjC (m b) * m b) : F)
          (if oddParity (b &&& p.z) = true then -((starRingEnd ℂ) ⟪m b⟫ * ⟪m b⟫).re else ((starRingEnd ℂ) ⟪m b⟫ * ⟪m b⟫).re)
          (Complex.normSq ⟪m b⟫) (3 * η) := by
      intro b hb
      have h := ((conjMul_appr A hu (hη.trans (by norm_num)) (hm b hb) (hm b hb)).1).mono hu0 le_rfl (le_of_eq (sq _)) (δ' := 3 * η) (by nlinarith)
      split
      · exact h.neg A
      · exact h
    have le16 : ∀ b : U64, b.toNat < 2 ^ n → Complex.normSq ⟪m b⟫ ≤ 16 := by
      intro b hb
      rw [← sq]
      nlinarith [hm b hb, norm_nonneg ⟪m b⟫]
    have t0 := one b0 m0
    have t1 := one b1 m1
    have r0 := t0.range hu0 hu (by norm_num) (le16 b0 m0) (d := 1) (by linarith)
    have r1 := t1.range hu0 hu (by norm_num) (le16 b1 m1) (d := 1) (by linarith)
    have t := (Appr.add A t0 t1 (by linarith) (by linarith)).mono hu0 le_rfl le_rfl (δ' := 40 * η) (by nlinarith)
    have l0 := le16 b0 m0
    have l1 := le16 b1 m1
    have k1 := coef_appr A hu hη hr hc (by norm_num) t (by linarith)
    have k2 := coef_appr A hu hη hi' hc (by norm_num) t (by linarith)
    refine ⟨?_, ?_⟩
    · rw [Complex.re_mul_ofReal]; exact k1
    · rw [Complex.im_mul_ofReal]; exact k2
  · unfold pairOf at m0 m1 ⊢
    simp only [if_neg h0] at m0 m1 ⊢
    rw [readAt_ok m0, readAt_ok m1, readAt_ok m0, readAt_ok m1]
    refine ⟨_, _, rfl, rfl, ?_⟩
    generalize insertZeroAt (BitVec.ofNat 64 i) (pivotOf p.x) = b0 at *
    generalize b0 ^^^ p.x = b1 at *
    have t := pairTerm_appr A hu hη (hm b0 m0) (hm b1 m1) (popcount (p.x &&& p.z))
    have t' : Appr val u 6 (if oddParity (b0 &&& p.z) = true then -Cplx.re (timesC (m b0 * conjC (m b1) * phase90F (popcount (p.x &&& p.z))) (lib.cast 2))
          else Cplx.re (timesC (m b0 * conjC (m b1) * phase90F (popcount (p.x &&& p.z))) (lib.cast 2)) : F)
        (if oddParity (b0 &&& p.z) = true then -(⟪m b0⟫ * (starRingEnd ℂ) ⟪m b1⟫ * phase90 (popcount (p.x &&& p.z)) * 2).re
          else (⟪m b0⟫ * (starRingEnd ℂ) ⟪m b1⟫ * phase90 (popcount (p.x &&& p.z)) * 2).re)
        (Complex.normSq ⟪m b0⟫ + Complex.normSq ⟪m b1⟫) (40 * η) := by
      have hG : 2 * (‖⟪m b0⟫‖ * ‖⟪m b1⟫‖) ≤ Complex.normSq ⟪m b0⟫ + Complex.normSq ⟪m b1⟫ := by
        rw [← Complex.sq_norm, ← Complex.sq_norm]
        nlinarith [sq_nonneg (‖⟪m b0⟫‖ - ‖⟪m b1⟫‖)]
      have t2 := t.mono hu0 le_rfl hG le_rfl
      split
      · exact t2.neg A
      · exact t2
    have le16 : ∀ b : U64, b.toNat < 2 ^ n → Complex.normSq ⟪m b⟫ ≤ 16 := by
      intro b hb
      rw [← Complex.sq_norm]
      nlinarith [hm b hb, norm_nonneg ⟪m b⟫]
    have l0 := le16 b0 m0
    have l1 := le16 b1 m1
    have k1 := coef_appr A hu hη hr hc (le_refl 6) t' (by linarith)
    have k2 := coef_appr A hu hη hi' hc (le_refl 6) t' (by linarith)
    refine ⟨?_, ?_⟩
    · rw [Complex.re_mul_ofReal]; exact k1
    · rw [Complex.im_mul_ofReal]; exact k2

theorem sum_list_mul (ts : List PauliOp) (S : ℝ) : (ts.map fun p => ‖p.coef‖ * S).sum = (ts.map fun p => ‖p.coef‖).sum * S := by
  induction ts with
  | nil => simp
  | cons p ts ih => rw [List.map_cons, List.sum_cons, List.map_cons, List.sum_cons, ih, add_mul]

theorem length_termRange (ts : List PauliOp) (N : Nat) : (termRange ts N).length = ts.length * N := by
  induction ts with
  | nil => simp [termRange]
  | cons p ts ih =>
    unfold termRange at ih ⊢
    rw [List.flatMap_cons, List.length_append, ih]
    simp only [List.length_map, List.length_range, List.length_cons]
    ring

theorem expectation_reduction (A : Accurate lib val u w η Ω) (Z : AddZero val Ω) (hu : u ≤ 1 / 64) (hη : η ≤ 1 / 1000) {n : Nat} (hn1 : 1 ≤ n) (hn : n ≤ 64)
    {m : U64 → Cx F} (hm : ∀ j : U64, j.toNat < 2 ^ n → ‖⟪m j⟫‖ ≤ 4) {o : Op} (hx : ∀ p ∈ o.terms, p.x.toNat < 2 ^ n)
    (hc : ∀ p ∈ o.terms, ‖p.coef‖ ≤ 32) {C S : ℝ} (hC : C = (o.terms.map fun p => ‖p.coef‖).sum) (hS : S = normSq (2 ^ n) fun j => ⟪m j⟫)
    (hΩ : ((1 : ℝ) + u) ^ (o.terms.length * 2 ^ (n - 1) + 8) * (C * S + 100 * ((2 ^ (n - 1) : ℕ) : ℝ) * η * (o.terms.length + C)) ≤ Ω) :
    (∃ s, Op.ExpectationF lib o (2 ^ n) m (.ok s)) ∧ ∀ r, Op.ExpectationF lib o (2 ^ n) m r → ∃ s, r = .ok s ∧
      |val s.re - (inner (2 ^ n) (fun j => ⟪m j⟫) (OpAct o.terms fun j => ⟪m j⟫)).re| ≤ expErr u η o.terms.length (2 ^ (n - 1)) C S ∧
      |val s.im - (inner (2 ^ n) (fun j => ⟪m j⟫) (OpAct o.terms fun j => ⟪m j⟫)).im| ≤ expErr u η o.terms.length (2 ^ (n - 1)) C S := by
  have hu0 := A.u_nonneg
  have hη0 := A.eta_nonneg
  have hN : (2 ^ n) >>> 1 = 2 ^ (n - 1) := by have := two_mul_half hn1; have e : 2 ^ n = 2 * 2 ^ (n - 1) := by rw [← pow_succ']; congr 1; omega
                                              omega
  have hitem : ∀ wi : PauliOp × Nat, ∃ xX : Cx F × ℂ, wi ∈ termRange o.terms ((2 ^ n) >>> 1) →
      expItemF lib (2 ^ n) m wi.1 (BitVec.ofNat 64 wi.2) = .ok xX.1 ∧ expItem (2 ^ n) (fun j => ⟪m j⟫) wi.1 (BitVec.ofNat 64 wi.2) = .ok xX.2 ∧
      Appr val u 8 xX.1.re xX.2.re (‖wi.1.coef‖ * (Complex.normSq ⟪m (pairOf wi.1 (BitVec.ofNat 64 wi.2)).1⟫ + Complex.normSq ⟪m (pairOf wi.1 (BitVec.ofNat 64 wi.2)).2⟫))
        (100 * η * (1 + ‖wi.1.coef‖)) ∧
      Appr val u 8 xX.1.im xX.2.im (‖wi.1.coef‖ * (Complex.normSq ⟪m (pairOf wi.1 (BitVec.ofNat 64 wi.2)).1⟫ + Complex.normSq ⟪m (pairOf wi.1 (BitVec.ofNat 64 wi.2)).2⟫))
        (100 * η * (1 + ‖wi.1.coef‖)) := by
    intro wi
    by_cases h : wi ∈ termRange o.terms ((2 ^ n) >>> 1)
    · obtain ⟨h1, h2⟩ := mem_termRange.1 h
      obtain ⟨x, X, a, b, c, d⟩ := expItem_appr A hu hη hn1 hn hm (hx _ h1) (hc _ h1) h2
      exact ⟨(x, X), fun _ => ⟨a, b, c, d⟩⟩
    · exact ⟨(0, 0), fun h' => absurd h' h⟩
  choose xX hxX using hitem
  have hval : ((termRange o.terms ((2 ^ n) >>> 1)).map fun wi => (xX wi).2).sum = inner (2 ^ n) (fun j => ⟪m j⟫) (OpAct o.terms fun j => ⟪m j⟫) := by
    have h1 := opExpectation_spec o hn1 hn hx (fun j => ⟪m j⟫)
    rw [reducePairs_ok (g := fun wi => (xX wi).2) (fun wi hwi => (hxX wi hwi).2.1)] at h1
    exact Except.ok.inj h1
  have hGsum : ((termRange o.terms ((2 ^ n) >>> 1)).map fun wi => ‖wi.1.coef‖ * (Complex.normSq ⟪m (pairOf wi.1 (BitVec.ofNat 64 wi.2)).1⟫ +
      Complex.normSq ⟪m (pairOf wi.1 (BitVec.ofNat 64 wi.2)).2⟫)).sum = C * S := by
    rw [sum_termRange, hC, hS, ← sum_list_mul]
    congr 1
    refine List.map_congr_left fun p hp => ?_
    dsimp only
    rw [← Finset.mul_sum, pairOf_sum hn1 hn (hx p hp) (fun j => Complex.normSq ⟪m j⟫)]
    rfl
  have hδsum : ((termRange o.terms ((2 ^ n) >>> 1)).map fun wi => 100 * η * (1 + ‖wi.1.coef‖)).sum =
      100 * ((2 ^ (n - 1) : ℕ) : ℝ) * η * (o.terms.length + C) := by
    rw [sum_termRange, hC, hN]
    simp only [Finset.sum_const, Finset.card_range, nsmul_eq_mul]
    generalize o.terms = ts
    induction ts with
    | nil => simp
    | cons p ts ih =>
      rw [List.map_cons, List.sum_cons, ih, List.map_cons, List.sum_cons, List.length_cons]
      push_cast
      ring
  have hlen : (termRange o.terms ((2 ^ n) >>> 1)).length = o.terms.length * 2 ^ (n - 1) := by rw [length_termRange, hN]
  have hC0 : 0 ≤ C := by rw [hC]; exact List.sum_nonneg (by simp)
  have hS0 : 0 ≤ S := by rw [hS]; exact Finset.sum_nonneg fun _ _ => Complex.normSq_nonneg _
  have hp8 : 1 ≤ ((1 : ℝ) + u) ^ 8 := one_le_pow₀ (by linarith)
  have hΩ' : ((1 : ℝ) + u) ^ (termRange o.terms ((2 ^ n) >>> 1)).length * (((1 : ℝ) + u) ^ 8 * ((termRange o.terms ((2 ^ n) >>> 1)).map fun wi =>
      ‖wi.1.coef‖ * (Complex.normSq ⟪m (pairOf wi.1 (BitVec.ofNat 64 wi.2)).1⟫ + Complex.normSq ⟪m (pairOf wi.1 (BitVec.ofNat 64 wi.2)).2⟫)).sum +
      ((termRange o.terms ((2 ^ n) >>> 1)).map fun wi => 100 * η * (1 + ‖wi.1.coef‖)).sum) ≤ Ω := by
    rw [hGsum, hδsum, hlen]
    refine le_trans ?_ hΩ
    have hp : 0 ≤ ((1 : ℝ) + u) ^ (o.terms.length * 2 ^ (n - 1)) := by positivity
    rw [pow_add, mul_assoc (((1 : ℝ) + u) ^ (o.terms.length * 2 ^ (n - 1)))]
    refine mul_le_mul_of_nonneg_left ?_ hp
    have : 0 ≤ 100 * ((2 ^ (n - 1) : ℕ) : ℝ) * η * (o.terms.length + C) := by positivity
    generalize 100 * ((2 ^ (n - 1) : ℕ) : ℝ) * η * (o.terms.length + C) = D at this ⊢
    nlinarith
  have hE : (((1 : ℝ) + u) ^ ((termRange o.terms ((2 ^ n) >>> 1)).length - 1 + 8) - (1 : ℝ)) * (C * S) +
      ((1 : ℝ) + u) ^ ((termRange o.terms ((2 ^ n) >>> 1)).length - 1) * (100 * ((2 ^ (n - 1) : ℕ) : ℝ) * η * (o.terms.length + C)) ≤
      expErr u η o.terms.length (2 ^ (n - 1)) C S := by
    rw [hlen]
    unfold expErr
    rcases Nat.eq_zero_or_pos (o.terms.length * 2 ^ (n - 1)) with h0 | h0
    · have hT : o.terms.length = 0 := by
        rcases Nat.mul_eq_zero.1 h0 with h | h
        · exact h
        · have := Nat.pos_of_ne_zero (n := 2 ^ (n - 1)) (by positivity); omega
      have hC' : C = 0 := by rw [hC, List.length_eq_zero_iff.1 hT]; rfl
      rw [hT, hC']
      simp
    · have e1 : o.terms.length * 2 ^ (n - 1) - 1 + 8 = o.terms.length * 2 ^ (n - 1) + 7 := by omega
      rw [e1]
      refine add_le_add le_rfl ?_
      rw [mul_comm]
      refine mul_le_mul_of_nonneg_left (pow_le_pow_right₀ (by linarith) (by omega)) (by positivity)
  have hred := fun r => reduction_ok (l := termRange o.terms ((2 ^ n) >>> 1)) (f := fun w => expItemF lib (2 ^ n) m w.1 (BitVec.ofNat 64 w.2))
    (g := fun wi => (xX wi).1) (fun wi hwi => (hxX wi hwi).1) r
  constructor
  · obtain ⟨s, hs⟩ := reducesTo_exists ((termRange o.terms ((2 ^ n) >>> 1)).map fun wi => (xX wi).1)
    exact ⟨s, (hred _).2 ⟨s, rfl, hs⟩⟩
  · intro r hr
    obtain ⟨s, rfl, hs⟩ := (hred r).1 hr
    refine ⟨s, rfl, ?_⟩
    have h1 := reducesTo_re hs
    have h2 := reducesTo_im hs
    rw [List.map_map] at h1 h2
    have k1 := reducesTo_appr A Z (k := 8) (g := fun wi => (xX wi).2.re) (fun wi hwi => (hxX wi hwi).2.2.1) h1 hΩ'
    have k2 := reducesTo_appr A Z (k := 8) (g := fun wi => (xX wi).2.im) (fun wi hwi => (hxX wi hwi).2.2.2) h2 hΩ'
    rw [hGsum, hδsum] at k1 k2
    have q1 : ((termRange o.terms ((2 ^ n) >>> 1)).map fun wi => (xX wi).2.re).sum = (inner (2 ^ n) (fun j => ⟪m j⟫) (OpAct o.terms fun j => ⟪m j⟫)).re := by
      rw [← hval]
      generalize termRange o.terms ((2 ^ n) >>> 1) = l
      induction l with
      | nil => rfl
      | cons a l ih => rw [List.map_cons, List.sum_cons, List.map_cons, List.sum_cons, ih, Complex.add_re]
    have q2 : ((termRange o.terms ((2 ^ n) >>> 1)).map fun wi => (xX wi).2.im).sum = (inner (2 ^ n) (fun j => ⟪m j⟫) (OpAct o.terms fun j => ⟪m j⟫)).im := by
      rw [← hval]
      generalize termRange o.terms ((2 ^ n) >>> 1) = l
      induction l with
      | nil => rfl
      | cons a l ih => rw [List.map_cons, List.sum_cons, List.map_cons, List.sum_cons, ih, Complex.add_im]
    rw [q1] at k1
    rw [q2] at k2
    exact ⟨k1.trans hE, k2.trans hE⟩

end

end Verif.Proofs
