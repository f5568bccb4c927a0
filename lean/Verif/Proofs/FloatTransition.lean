import Verif.Model.FloatTransition
import Verif.Spec.Transition
import Verif.Proofs.FloatExpect
import Verif.Proofs.FloatReal

/-! # Transition amplitudes in floating-point arithmetic -/

namespace Verif.Proofs
open Verif Verif.Spec Verif.Model
attribute [-simp] BitVec.getLsbD_eq_getElem

section
variable {F : Type} [_root_.Zero F] [One F] [Add F] [Sub F] [Mul F] [Neg F] {lib : FloatLib F} {val : F → ℝ} {u w η Ω : ℝ}

local notation "⟪" x "⟫" => cval val x

/-- both parts of a computed complex number -/
def ApprC (val : F → ℝ) (u : ℝ) (k : Nat) (x : Cx F) (X : ℂ) (G δ : ℝ) : Prop :=
  Appr val u k x.re X.re G δ ∧ Appr val u k x.im X.im G δ

theorem ApprC.mono {k k' : Nat} {x : Cx F} {X : ℂ} {G G' δ δ' : ℝ} (hu : 0 ≤ u) (h : ApprC val u k x X G δ) (hk : k ≤ k') (hG : G ≤ G') (hδ : δ ≤ δ') :
    ApprC val u k' x X G' δ' := ⟨h.1.mono hu hk hG hδ, h.2.mono hu hk hG hδ⟩

theorem ApprC.neg (A : Accurate lib val u w η Ω) {k : Nat} {x : Cx F} {X : ℂ} {G δ : ℝ} (h : ApprC val u k x X G δ) : ApprC val u k (-x) (-X) G δ :=
  ⟨h.1.neg A, h.2.neg A⟩

theorem ApprC.signed (A : Accurate lib val u w η Ω) {k : Nat} {x : Cx F} {X : ℂ} {G δ : ℝ} (h : ApprC val u k x X G δ) (b : Bool) :
    ApprC val u k (if b = true then -x else x) (if b = true then -X else X) G δ := by
  split
  · exact h.neg A
  · exact h

/-- the sum of two numbers -/
theorem ApprC.add (A : Accurate lib val u w η Ω) (hu : u ≤ 1 / 64) {k : Nat} (hk : k ≤ 8) {x y : Cx F} {X Y : ℂ} {G H δ ε : ℝ}
    (hx : ApprC val u k x X G δ) (hy : ApprC val u k y Y H ε) (hG : G ≤ 50) (hH : H ≤ 50) (hδ : δ ≤ 1) (hε : ε ≤ 1) :
    ApprC val u (k + 1) (x + y) (X + Y) (G + H) ((1 + u) * (δ + ε)) := by
  have hu0 := A.u_nonneg
  have hΩ := A.big
  have r1 := hx.1.range hu0 hu hk hG hδ
  have r2 := hx.2.range hu0 hu hk hG hδ
  have r3 := hy.1.range hu0 hu hk hH hε
  have r4 := hy.2.range hu0 hu hk hH hε
  exact ⟨Appr.add A hx.1 hy.1 (by linarith) (by linarith), Appr.add A hx.2 hy.2 (by linarith) (by linarith)⟩

/-- the product with a power of `i` -/
theorem phase_appr (A : Accurate lib val u w η Ω) (hu : u ≤ 1 / 64) (hη : η ≤ 1 / 1000) {z : Cx F} {Z : ℂ} {H : ℝ} (h : ApprC val u 2 z Z H (3 * η))
    (hH : H ≤ 16) (k : Nat) : ApprC val u 4 (z * phase90F k) (Z * phase90 k) H (7 * η) := by
  have hu0 := A.u_nonneg
  have hη0 := A.eta_nonneg
  have hΩ := A.big
  have hH0 : 0 ≤ H := (abs_nonneg _).trans h.1.2.1
  obtain ⟨p1, p2⟩ := phase90F_val A (F := F) k
  obtain ⟨h1, h2⟩ := h
  generalize (phase90F k : Cx F) = ph at p1 p2 ⊢
  have ha : |val ph.re| ≤ 1 := by have := abs_nonneg (val ph.im); linarith
  have hb : |val ph.im| ≤ 1 := by have := abs_nonneg (val ph.re); linarith
  have r1 := h1.range hu0 hu (by norm_num) hH (d := 1) (by linarith)
  have r2 := h2.range hu0 hu (by norm_num) hH (d := 1) (by linarith)
  have prod : ∀ {x : F} {X : ℝ} (a : F), Appr val u 2 x X H (3 * η) → |val x| ≤ 64 → |val a| ≤ 1 →
      Appr val u 3 (x * a) (X * val a) (H * |val a|) (6 / 5 * (|val a| * (3 * η)) + η) ∧ |val (x * a)| ≤ 64 := by
    intro x X a hx hr ha
    have m := Appr.mul A hx (Appr.exact a (u := u)) hr (by linarith)
    have d : (1 + u) * ((1 + u) ^ 2 * H * 0 + (1 + u) ^ 0 * |val a| * (3 * η) + 3 * η * 0) + η ≤ 6 / 5 * (|val a| * (3 * η)) + η := by
      have : (1 + u) * (|val a| * (3 * η)) ≤ 6 / 5 * (|val a| * (3 * η)) := mul_le_mul_of_nonneg_right (by linarith) (by positivity)
      simpa using this
    have m' := m.mono hu0 le_rfl le_rfl d
    have g : H * |val a| ≤ 16 := by nlinarith [abs_nonneg (val a)]
    have q := m'.range hu0 hu (by norm_num) g (d := 1) (by nlinarith)
    exact ⟨m', by linarith⟩
  obtain ⟨a1, b1⟩ := prod ph.re h1 (by linarith) ha
  obtain ⟨a2, b2⟩ := prod ph.im h2 (by linarith) hb
  obtain ⟨a3, b3⟩ := prod ph.im h1 (by linarith) hb
  obtain ⟨a4, b4⟩ := prod ph.re h2 (by linarith) ha
  have s1 := Appr.sub A a1 a2 b1 b2
  have s2 := Appr.add A a3 a4 (by linarith) (by linarith)
  have hd : (1 + u) * (6 / 5 * (3 * η) + 2 * η) ≤ 7 * η := by nlinarith
  rw [← p1]
  constructor
  · have e : (Z * ⟪ph⟫).re = Z.re * val ph.re - Z.im * val ph.im := by rw [Complex.mul_re]; rfl
    rw [e]
    refine s1.mono hu0 le_rfl (by rw [← mul_add, p2, mul_one]) (le_trans (le_of_eq ?_) hd)
    have : |val ph.re| = 1 - |val ph.im| := by linarith
    rw [this]; ring
  · have e : (Z * ⟪ph⟫).im = Z.re * val ph.im + Z.im * val ph.re := by rw [Complex.mul_im]; rfl
    rw [e]
    refine s2.mono hu0 le_rfl (by rw [← mul_add, add_comm, p2, mul_one]) (le_trans (le_of_eq ?_) hd)
    have : |val ph.re| = 1 - |val ph.im| := by linarith
    rw [this]; ring

/-- a complex coefficient times a computed number -/
theorem coefC_appr (A : Accurate lib val u w η Ω) (hu : u ≤ 1 / 64) (hη : η ≤ 1 / 1000) {c : ℂ} (hc : ‖c‖ ≤ 4) {k : Nat} (hk : k ≤ 6) {t : Cx F} {T : ℂ} {G : ℝ}
    (ht : ApprC val u k t T G (40 * η)) (hG : G ≤ 8) :
    ApprC val u 9 (castC lib c * t) (c * T) (‖c‖ * (2 * G)) (240 * η * (1 + ‖c‖)) := by
  have hu0 := A.u_nonneg
  have hη0 := A.eta_nonneg
  have hΩ := A.big
  have hG0 : 0 ≤ G := (abs_nonneg _).trans ht.1.2.1
  have hr := Complex.abs_re_le_norm c
  have hi := Complex.abs_im_le_norm c
  have hn := norm_nonneg c
  have k1 := coef_appr A hu hη hr (by linarith) hk ht.1 (by linarith)
  have k2 := coef_appr A hu hη hi (by linarith) hk ht.2 (by linarith)
  have k3 := coef_appr A hu hη hr (by linarith) hk ht.2 (by linarith)
  have k4 := coef_appr A hu hη hi (by linarith) hk ht.1 (by linarith)
  have hg : ‖c‖ * G ≤ 32 := by nlinarith
  have hd : 100 * η * (1 + ‖c‖) ≤ 1 := by nlinarith
  have r1 := k1.range hu0 hu (by norm_num) hg hd
  have r2 := k2.range hu0 hu (by norm_num) hg hd
  have r3 := k3.range hu0 hu (by norm_num) hg hd
  have r4 := k4.range hu0 hu (by norm_num) hg hd
  have s1 := Appr.sub A k1 k2 (by linarith) (by linarith)
  have s2 := Appr.add A k3 k4 (by linarith) (by linarith)
  have hδ : (1 + u) * (100 * η * (1 + ‖c‖) + 100 * η * (1 + ‖c‖)) ≤ 240 * η * (1 + ‖c‖) := by
    have : 0 ≤ η * (1 + ‖c‖) := by positivity
    nlinarith
  have hG2 : ‖c‖ * G + ‖c‖ * G ≤ ‖c‖ * (2 * G) := by linarith
  constructor
  · rw [Complex.mul_re]; exact s1.mono hu0 le_rfl hG2 hδ
  · rw [Complex.mul_im]; exact s2.mono hu0 le_rfl hG2 hδ

/-- the magnitude assigned to one index: the squared amplitudes of both states -/
noncomputable def pairMag (bra ket : U64 → ℂ) (j : U64) : ℝ := Complex.normSq (bra j) + Complex.normSq (ket j)

theorem two_mul_norms (x y : ℂ) : 2 * (‖x‖ * ‖y‖) ≤ Complex.normSq x + Complex.normSq y := by
  rw [← Complex.sq_norm, ← Complex.sq_norm]
  nlinarith [sq_nonneg (‖x‖ - ‖y‖)]

/-- one product of amplitudes -/
theorem amp_appr (A : Accurate lib val u w η Ω) (hu : u ≤ 1 / 64) (hη : η ≤ 1 / 1000) {x y : Cx F} (hx : ‖⟪x⟫‖ ≤ 2) (hy : ‖⟪y⟫‖ ≤ 2) :
    ApprC val u 2 (conjC x * y) ((starRingEnd ℂ) ⟪x⟫ * ⟪y⟫) (‖⟪x⟫‖ * ‖⟪y⟫‖) (3 * η) ∧ ‖⟪x⟫‖ * ‖⟪y⟫‖ ≤ 4 := by
  have hu0 := A.u_nonneg
  have hη0 := A.eta_nonneg
  obtain ⟨h1, h2⟩ := conjMul_appr A hu (hη.trans (by norm_num)) (hx.trans (by norm_num)) (hy.trans (by norm_num))
  have hδ : (1 + u) * (2 * η) ≤ 3 * η := by nlinarith
  exact ⟨⟨h1.mono hu0 le_rfl le_rfl hδ, h2.mono hu0 le_rfl le_rfl hδ⟩, by nlinarith [norm_nonneg ⟪x⟫, norm_nonneg ⟪y⟫]⟩

/-- the sum of the two contributions of a work item without bit flips -/
theorem diagPair_appr (A : Accurate lib val u w η Ω) (hu : u ≤ 1 / 64) (hη : η ≤ 1 / 1000) {a0 a1 b0 b1 : Cx F} (ha0 : ‖⟪a0⟫‖ ≤ 2) (ha1 : ‖⟪a1⟫‖ ≤ 2)
    (hb0 : ‖⟪b0⟫‖ ≤ 2) (hb1 : ‖⟪b1⟫‖ ≤ 2) (s0 s1 : Bool) :
    ∃ G, G ≤ 8 ∧ 2 * G ≤ Complex.normSq ⟪a0⟫ + Complex.normSq ⟪b0⟫ + (Complex.normSq ⟪a1⟫ + Complex.normSq ⟪b1⟫) ∧
      ApprC val u 3 ((if s0 = true then -(conjC a0 * b0) else conjC a0 * b0) + (if s1 = true then -(conjC a1 * b1) else conjC a1 * b1))
        ((if s0 = true then -((starRingEnd ℂ) ⟪a0⟫ * ⟪b0⟫) else (starRingEnd ℂ) ⟪a0⟫ * ⟪b0⟫) +
          (if s1 = true then -((starRingEnd ℂ) ⟪a1⟫ * ⟪b1⟫) else (starRingEnd ℂ) ⟪a1⟫ * ⟪b1⟫)) G (8 * η) := by
  have hu0 := A.u_nonneg
  have hη0 := A.eta_nonneg
  obtain ⟨t0, g0⟩ := amp_appr A hu hη ha0 hb0
  obtain ⟨t1, g1⟩ := amp_appr A hu hη ha1 hb1
  refine ⟨‖⟪a0⟫‖ * ‖⟪b0⟫‖ + ‖⟪a1⟫‖ * ‖⟪b1⟫‖, by linarith, by linarith [two_mul_norms ⟪a0⟫ ⟪b0⟫, two_mul_norms ⟪a1⟫ ⟪b1⟫], ?_⟩
  exact (ApprC.add A hu (by norm_num) (t0.signed A s0) (t1.signed A s1) (by linarith) (by linarith) (by linarith) (by linarith)).mono hu0 le_rfl le_rfl
    (by nlinarith)

/-- the sum of the two contributions of a work item with bit flips -/
theorem flipPair_appr (A : Accurate lib val u w η Ω) (hu : u ≤ 1 / 64) (hη : η ≤ 1 / 1000) {a0 a1 b0 b1 : Cx F} (ha0 : ‖⟪a0⟫‖ ≤ 2) (ha1 : ‖⟪a1⟫‖ ≤ 2)
    (hb0 : ‖⟪b0⟫‖ ≤ 2) (hb1 : ‖⟪b1⟫‖ ≤ 2) (s0 s1 : Bool) (k : Nat) :
    ∃ G, G ≤ 8 ∧ 2 * G ≤ Complex.normSq ⟪a0⟫ + Complex.normSq ⟪b0⟫ + (Complex.normSq ⟪a1⟫ + Complex.normSq ⟪b1⟫) ∧
      ApprC val u 5 ((if s0 = true then -(conjC a1 * b0 * phase90F k) else conjC a1 * b0 * phase90F k) +
          (if s1 = true then -(conjC a0 * b1 * phase90F k) else conjC a0 * b1 * phase90F k))
        ((if s0 = true then -((starRingEnd ℂ) ⟪a1⟫ * ⟪b0⟫ * phase90 k) else (starRingEnd ℂ) ⟪a1⟫ * ⟪b0⟫ * phase90 k) +
          (if s1 = true then -((starRingEnd ℂ) ⟪a0⟫ * ⟪b1⟫ * phase90 k) else (starRingEnd ℂ) ⟪a0⟫ * ⟪b1⟫ * phase90 k)) G (16 * η) := by
  have hu0 := A.u_nonneg
  have hη0 := A.eta_nonneg
  obtain ⟨t0, g0⟩ := amp_appr A hu hη ha1 hb0
  obtain ⟨t1, g1⟩ := amp_appr A hu hη ha0 hb1
  have q0 := phase_appr A hu hη t0 (by linarith) k
  have q1 := phase_appr A hu hη t1 (by linarith) k
  refine ⟨‖⟪a1⟫‖ * ‖⟪b0⟫‖ + ‖⟪a0⟫‖ * ‖⟪b1⟫‖, by linarith, by linarith [two_mul_norms ⟪a1⟫ ⟪b0⟫, two_mul_norms ⟪a0⟫ ⟪b1⟫], ?_⟩
  exact (ApprC.add A hu (by norm_num) (q0.signed A s0) (q1.signed A s1) (by linarith) (by linarith) (by linarith) (by linarith)).mono hu0 le_rfl le_rfl
    (by nlinarith)

/-- one work item -/
theorem transItem_appr (A : Accurate lib val u w η Ω) (hu : u ≤ 1 / 64) (hη : η ≤ 1 / 1000) {n : Nat} (hn1 : 1 ≤ n) (hn : n ≤ 64) {bra ket : U64 → Cx F}
    (hb : ∀ j : U64, j.toNat < 2 ^ n → ‖⟪bra j⟫‖ ≤ 2) (hk : ∀ j : U64, j.toNat < 2 ^ n → ‖⟪ket j⟫‖ ≤ 2) {p : PauliOp} (hx : p.x.toNat < 2 ^ n)
    (hc : ‖p.coef‖ ≤ 4) {i : Nat} (hi : i < (2 ^ n) >>> 1) :
    ∃ x X, transItemF lib (2 ^ n) bra ket p (BitVec.ofNat 64 i) = .ok x ∧
      transItem (2 ^ n) (fun j => ⟪bra j⟫) (fun j => ⟪ket j⟫) p (BitVec.ofNat 64 i) = .ok X ∧
      ApprC val u 9 x X (‖p.coef‖ * (pairMag (fun j => ⟪bra j⟫) (fun j => ⟪ket j⟫) (pairOf p (BitVec.ofNat 64 i)).1 +
        pairMag (fun j => ⟪bra j⟫) (fun j => ⟪ket j⟫) (pairOf p (BitVec.ofNat 64 i)).2)) (240 * η * (1 + ‖p.coef‖)) := by
  have hu0 := A.u_nonneg
  have hη0 := A.eta_nonneg
  obtain ⟨m0, m1⟩ := pairOf_mem hn1 hn hx hi
  have hn0 := norm_nonneg p.coef
  unfold transItemF transItem pairMag
  by_cases h0 : p.x = 0
  · unfold pairOf at m0 m1 ⊢
    simp only [if_pos h0] at m0 m1 ⊢
    rw [readAt_ok m0, readAt_ok m0, readAt_ok m1, readAt_ok m1, readAt_ok m0, readAt_ok m0, readAt_ok m1, readAt_ok m1]
    refine ⟨_, _, rfl, rfl, ?_⟩
    generalize BitVec.ofNat 64 i <<< 1 = b0 at *
    generalize b0 ||| 1 = b1 at *
    obtain ⟨G, g1, g2, t⟩ := diagPair_appr A hu hη (hb b0 m0) (hb b1 m1) (hk b0 m0) (hk b1 m1) (oddParity (b0 &&& p.z)) (oddParity (b1 &&& p.z))
    exact (coefC_appr A hu hη hc (by norm_num) (t.mono hu0 le_rfl le_rfl (by linarith)) g1).mono hu0 le_rfl (mul_le_mul_of_nonneg_left g2 hn0) le_rfl
  · unfold pairOf at m0 m1 ⊢
    simp only [if_neg h0] at m0 m1 ⊢
    rw [readAt_ok m0, readAt_ok m1, readAt_ok m0, readAt_ok m1, readAt_ok m0, readAt_ok m1, readAt_ok m0, readAt_ok m1]
    refine ⟨_, _, rfl, rfl, ?_⟩
    generalize insertZeroAt (BitVec.ofNat 64 i) (pivotOf p.x) = b0 at *
    generalize b0 ^^^ p.x = b1 at *
    obtain ⟨G, g1, g2, t⟩ := flipPair_appr A hu hη (hb b0 m0) (hb b1 m1) (hk b0 m0) (hk b1 m1) (oddParity (b0 &&& p.z)) (oddParity (b1 &&& p.z))
      (popcount (p.x &&& p.z))
    exact (coefC_appr A hu hη hc (by norm_num) (t.mono hu0 le_rfl le_rfl (by linarith)) g1).mono hu0 le_rfl (mul_le_mul_of_nonneg_left g2 hn0) le_rfl

theorem transition_reduction (A : Accurate lib val u w η Ω) (Z : AddZero val Ω) (hu : u ≤ 1 / 64) (hη : η ≤ 1 / 1000) {n : Nat} (hn1 : 1 ≤ n) (hn : n ≤ 64)
    {bra ket : U64 → Cx F} (hb : ∀ j : U64, j.toNat < 2 ^ n → ‖⟪bra j⟫‖ ≤ 2) (hk : ∀ j : U64, j.toNat < 2 ^ n → ‖⟪ket j⟫‖ ≤ 2) {o : Op}
    (hx : ∀ p ∈ o.terms, p.x.toNat < 2 ^ n) (hc : ∀ p ∈ o.terms, ‖p.coef‖ ≤ 4) {C S : ℝ} (hC : C = (o.terms.map fun p => ‖p.coef‖).sum)
    (hS' : S = normSq (2 ^ n) (fun j => ⟪bra j⟫) + normSq (2 ^ n) fun j => ⟪ket j⟫)
    (hΩ : ((1 : ℝ) + u) ^ (o.terms.length * 2 ^ (n - 1) + 9) * (C * S + 240 * ((2 ^ (n - 1) : ℕ) : ℝ) * η * (o.terms.length + C)) ≤ Ω) :
    (∃ s, o.TransitionSumF lib (2 ^ n) bra ket (.ok s)) ∧ ∀ r, o.TransitionSumF lib (2 ^ n) bra ket r → ∃ s, r = .ok s ∧
      |val s.re - (inner (2 ^ n) (fun j => ⟪bra j⟫) (OpAct o.terms fun j => ⟪ket j⟫)).re| ≤ transErr u η o.terms.length (2 ^ (n - 1)) C S ∧
      |val s.im - (inner (2 ^ n) (fun j => ⟪bra j⟫) (OpAct o.terms fun j => ⟪ket j⟫)).im| ≤ transErr u η o.terms.length (2 ^ (n - 1)) C S := by
  have hu0 := A.u_nonneg
  have hη0 := A.eta_nonneg
  have hN : (2 ^ n) >>> 1 = 2 ^ (n - 1) := by have := two_mul_half hn1; have e : 2 ^ n = 2 * 2 ^ (n - 1) := by rw [← pow_succ']; congr 1; omega
                                              omega
  obtain ⟨q, hq⟩ : ∃ q, q = pairMag (fun j => ⟪bra j⟫) (fun j => ⟪ket j⟫) := ⟨_, rfl⟩
  have hq0 : ∀ j, 0 ≤ q j := fun j => by rw [hq]; exact add_nonneg (Complex.normSq_nonneg _) (Complex.normSq_nonneg _)
  have hS : S = ∑ j ∈ indices (2 ^ n), q j := by rw [hS', hq]; exact Finset.sum_add_distrib.symm
  have hitem : ∀ wi : PauliOp × Nat, ∃ xX : Cx F × ℂ, wi ∈ termRange o.terms ((2 ^ n) >>> 1) →
      transItemF lib (2 ^ n) bra ket wi.1 (BitVec.ofNat 64 wi.2) = .ok xX.1 ∧
      transItem (2 ^ n) (fun j => ⟪bra j⟫) (fun j => ⟪ket j⟫) wi.1 (BitVec.ofNat 64 wi.2) = .ok xX.2 ∧
      Appr val u 9 xX.1.re xX.2.re (‖wi.1.coef‖ * (q (pairOf wi.1 (BitVec.ofNat 64 wi.2)).1 + q (pairOf wi.1 (BitVec.ofNat 64 wi.2)).2)) (240 * η * (1 + ‖wi.1.coef‖)) ∧
      Appr val u 9 xX.1.im xX.2.im (‖wi.1.coef‖ * (q (pairOf wi.1 (BitVec.ofNat 64 wi.2)).1 + q (pairOf wi.1 (BitVec.ofNat 64 wi.2)).2)) (240 * η * (1 + ‖wi.1.coef‖)) := by
    intro wi
    by_cases h : wi ∈ termRange o.terms ((2 ^ n) >>> 1)
    · obtain ⟨h1, h2⟩ := mem_termRange.1 h
      obtain ⟨x, X, a, b, c, d⟩ := transItem_appr A hu hη hn1 hn hb hk (hx _ h1) (hc _ h1) h2
      rw [← hq] at c d
      exact ⟨(x, X), fun _ => ⟨a, b, c, d⟩⟩
    · exact ⟨(0, 0), fun h' => absurd h' h⟩
  choose xX hxX using hitem
  have hval : ((termRange o.terms ((2 ^ n) >>> 1)).map fun wi => (xX wi).2).sum = inner (2 ^ n) (fun j => ⟪bra j⟫) (OpAct o.terms fun j => ⟪ket j⟫) := by
    have h1 := opTransition_spec o hn1 hn hx (fun j => ⟪bra j⟫) (fun j => ⟪ket j⟫)
    rw [reducePairs_ok (g := fun wi => (xX wi).2) (fun wi hwi => (hxX wi hwi).2.1)] at h1
    exact Except.ok.inj h1
  have hGsum : ((termRange o.terms ((2 ^ n) >>> 1)).map fun wi => ‖wi.1.coef‖ * (q (pairOf wi.1 (BitVec.ofNat 64 wi.2)).1 + q (pairOf wi.1 (BitVec.ofNat 64 wi.2)).2)).sum = C * S := by
    rw [sum_termRange, hC, hS, ← sum_list_mul]
    congr 1
    refine List.map_congr_left fun p hp => ?_
    dsimp only
    rw [← Finset.mul_sum, pairOf_sum hn1 hn (hx p hp) q]
  have hδsum : ((termRange o.terms ((2 ^ n) >>> 1)).map fun wi => 240 * η * (1 + ‖wi.1.coef‖)).sum =
      240 * ((2 ^ (n - 1) : ℕ) : ℝ) * η * (o.terms.length + C) := by
    rw [sum_termRange, hC, hN]
    simp only [Finset.sum_const, Finset.card_range, nsmul_eq_mul]
    generalize o.terms = ts
    induction ts with
    | nil => simp
    | cons p ts ih =>
      rw [List.map_cons, List.sum_cons, ih, List.map_cons, List.sum_cons, List.length_cons]
      push_cast
      ring
  have hlen : (termRange o.terms ((2 ^ n) >>> 1)).length = o.terms.length * 2 ^ (n - 1) := by rw [length_termRange, hN]
  have hC0 : 0 ≤ C := by rw [hC]; exact List.sum_nonneg (by simp)
  have hS0 : 0 ≤ S := by rw [hS]; exact Finset.sum_nonneg fun _ _ => hq0 _
  have hp8 : 1 ≤ ((1 : ℝ) + u) ^ 9 := one_le_pow₀ (by linarith)
  have hΩ' : ((1 : ℝ) + u) ^ (termRange o.terms ((2 ^ n) >>> 1)).length * (((1 : ℝ) + u) ^ 9 * ((termRange o.terms ((2 ^ n) >>> 1)).map fun wi =>
      ‖wi.1.coef‖ * (q (pairOf wi.1 (BitVec.ofNat 64 wi.2)).1 + q (pairOf wi.1 (BitVec.ofNat 64 wi.2)).2)).sum +
      ((termRange o.terms ((2 ^ n) >>> 1)).map fun wi => 240 * η * (1 + ‖wi.1.coef‖)).sum) ≤ Ω := by
    rw [hGsum, hδsum, hlen]
    refine le_trans ?_ hΩ
    have hp : 0 ≤ ((1 : ℝ) + u) ^ (o.terms.length * 2 ^ (n - 1)) := by positivity
    rw [pow_add, mul_assoc (((1 : ℝ) + u) ^ (o.terms.length * 2 ^ (n - 1)))]
    refine mul_le_mul_of_nonneg_left ?_ hp
    have : 0 ≤ 240 * ((2 ^ (n - 1) : ℕ) : ℝ) * η * (o.terms.length + C) := by positivity
    generalize 240 * ((2 ^ (n - 1) : ℕ) : ℝ) * η * (o.terms.length + C) = D at this ⊢
    nlinarith
  have hE : (((1 : ℝ) + u) ^ ((termRange o.terms ((2 ^ n) >>> 1)).length - 1 + 9) - (1 : ℝ)) * (C * S) +
      ((1 : ℝ) + u) ^ ((termRange o.terms ((2 ^ n) >>> 1)).length - 1) * (240 * ((2 ^ (n - 1) : ℕ) : ℝ) * η * (o.terms.length + C)) ≤
      transErr u η o.terms.length (2 ^ (n - 1)) C S := by
    rw [hlen]
    unfold transErr
    rcases Nat.eq_zero_or_pos (o.terms.length * 2 ^ (n - 1)) with h0 | h0
    · have hT : o.terms.length = 0 := by
        rcases Nat.mul_eq_zero.1 h0 with h | h
        · exact h
        · have := Nat.pos_of_ne_zero (n := 2 ^ (n - 1)) (by positivity); omega
      have hC' : C = 0 := by rw [hC, List.length_eq_zero_iff.1 hT]; rfl
      rw [hT, hC']
      simp
    · have e1 : o.terms.length * 2 ^ (n - 1) - 1 + 9 = o.terms.length * 2 ^ (n - 1) + 8 := by omega
      rw [e1]
      refine add_le_add le_rfl ?_
      rw [mul_comm]
      refine mul_le_mul_of_nonneg_left (pow_le_pow_right₀ (by linarith) (by omega)) (by positivity)
  have hred := fun r => reduction_ok (l := termRange o.terms ((2 ^ n) >>> 1)) (f := fun w => transItemF lib (2 ^ n) bra ket w.1 (BitVec.ofNat 64 w.2))
    (g := fun wi => (xX wi).1) (fun wi hwi => (hxX wi hwi).1) r
  constructor
  · obtain ⟨s, hs⟩ := reducesTo_exists ((termRange o.terms ((2 ^ n) >>> 1)).map fun wi => (xX wi).1)
    exact ⟨s, (hred _).2 ⟨s, rfl, hs⟩⟩
  · intro r hr
    obtain ⟨s, rfl, hs⟩ := (hred r).1 hr
    refine ⟨s, rfl, ?_⟩
    have h1 := reducesTo_re hs
    have h2 := reducesTo_im hs
    rw [List.map_map] at h1 h2
    have k1 := reducesTo_appr A Z (k := 9) (g := fun wi => (xX wi).2.re) (fun wi hwi => (hxX wi hwi).2.2.1) h1 hΩ'
    have k2 := reducesTo_appr A Z (k := 9) (g := fun wi => (xX wi).2.im) (fun wi hwi => (hxX wi hwi).2.2.2) h2 hΩ'
    rw [hGsum, hδsum] at k1 k2
    have q1 : ((termRange o.terms ((2 ^ n) >>> 1)).map fun wi => (xX wi).2.re).sum = (inner (2 ^ n) (fun j => ⟪bra j⟫) (OpAct o.terms fun j => ⟪ket j⟫)).re := by
      rw [← hval]
      generalize termRange o.terms ((2 ^ n) >>> 1) = l
      induction l with
      | nil => rfl
      | cons a l ih => rw [List.map_cons, List.sum_cons, List.map_cons, List.sum_cons, ih, Complex.add_re]
    have q2 : ((termRange o.terms ((2 ^ n) >>> 1)).map fun wi => (xX wi).2.im).sum = (inner (2 ^ n) (fun j => ⟪bra j⟫) (OpAct o.terms fun j => ⟪ket j⟫)).im := by
      rw [← hval]
      generalize termRange o.terms ((2 ^ n) >>> 1) = l
      induction l with
      | nil => rfl
      | cons a l ih => rw [List.map_cons, List.sum_cons, List.map_cons, List.sum_cons, ih, Complex.add_im]
    rw [q1] at k1
    rw [q2] at k2
    exact ⟨k1.trans hE, k2.trans hE⟩

end

end Verif.Proofs
