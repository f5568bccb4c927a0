import Verif.Proofs.FloatTransition

/-! # Expectation values and transition amplitudes of Pauli operators in floating-point arithmetic -/

namespace Verif.Proofs
open Verif Verif.Spec Verif.Model
attribute [-simp] BitVec.getLsbD_eq_getElem

/-! ## the exact functions -/

theorem pauliExpectation_exact (p : PauliOp) (dim : Nat) (ψ : U64 → ℂ) :
    p.expectation dim ψ = (reduceSum (if p.x = 0 then dim else dim >>> 1) (pauliExpItemF exactLib dim ψ p)).map (timesC (castC exactLib p.coef)) := by
  unfold PauliOp.expectation pauliExpItemF
  by_cases h0 : p.x = 0
  · simp only [if_pos h0, conjC_exact]
    show Except.bind _ _ = _
    cases reduceSum (R := ℝ) dim _ with
    | error e => rfl
    | ok s => show Except.ok _ = Except.ok _; rw [timesC_exact, castC_exact]
  · simp only [if_neg h0, conjC_exact, timesC_exact, phase90F_exact]
    show Except.bind _ _ = Except.map _ (reduceSum (R := ℝ) (dim >>> 1) fun i => do
      let a ← readAt dim ψ (insertZeroAt i (pivotOf p.x))
      let b ← readAt dim ψ (insertZeroAt i (pivotOf p.x) ^^^ p.x)
      pure (if oddParity (insertZeroAt i (pivotOf p.x) &&& p.z) = true then -(a * (starRingEnd ℂ) b * phase90 (popcount (p.x &&& p.z)) * 2).re
        else (a * (starRingEnd ℂ) b * phase90 (popcount (p.x &&& p.z)) * 2).re))
    cases reduceSum (R := ℝ) (dim >>> 1) _ with
    | error e => rfl
    | ok s => show Except.ok _ = Except.ok _; rw [timesC_exact, castC_exact]

theorem pauliTransition_exact (p : PauliOp) (dim dim' : Nat) (bra ket : U64 → ℂ) :
    p.transition dim dim' bra ket =
      (reduceSum (if p.x = 0 then dim else dim >>> 1) (pauliTransItemF (F := ℝ) dim dim' bra ket p)).map fun z => castC exactLib p.coef * z := by
  unfold PauliOp.transition pauliTransItemF
  by_cases h0 : p.x = 0
  · simp only [if_pos h0, conjC_exact]
    show Except.bind _ _ = _
    cases reduceSum (R := ℂ) dim _ with
    | error e => rfl
    | ok s => show Except.ok _ = Except.ok _; rw [castC_exact]
  · simp only [if_neg h0, conjC_exact, phase90F_exact]
    show Except.bind _ _ = _
    cases reduceSum (R := ℂ) (dim >>> 1) _ with
    | error e => rfl
    | ok s => show Except.ok _ = Except.ok _; rw [castC_exact]

section
variable {F : Type} [_root_.Zero F] [One F] [Add F] [Sub F] [Mul F] [Neg F] {lib : FloatLib F} {val : F → ℝ} {u w η Ω : ℝ}

local notation "⟪" x "⟫" => cval val x

/-! ## a sum times a coefficient -/

theorem sumCoef_real {u η N C S G g : ℝ} {P : ℝ} (hη0 : 0 ≤ η) (hη : η ≤ 1 / 1000) (hN : 0 ≤ N) (hC : 0 ≤ C) (hG : 0 ≤ G) (hGS : G ≤ S) (hP : 1 ≤ P)
    (h1 : g ≤ P * (C * (40 * N * η)) + P * (G * η) + P * (η * (40 * N * η)) + η) : g ≤ 45 * (N + 1) * η * (1 + C) * (1 + S) * P := by
  have hS : 0 ≤ S := hG.trans hGS
  have e1 : P * (η * (40 * N * η)) ≤ P * (η * N) := by
    refine mul_le_mul_of_nonneg_left (mul_le_mul_of_nonneg_left ?_ hη0) (by linarith)
    nlinarith
  have e2 : P * (G * η) ≤ P * (S * η) := mul_le_mul_of_nonneg_left (mul_le_mul_of_nonneg_right hGS hη0) (by linarith)
  have e3 : η ≤ P * η := by nlinarith
  have e4 : P * (C * (40 * N * η)) + P * (S * η) + P * (η * N) + P * η = P * η * (40 * (N * C) + S + N + 1) := by ring
  have e5 : 40 * (N * C) + S + N + 1 ≤ 45 * ((N + 1) * (1 + C) * (1 + S)) := by
    have a := mul_nonneg hN hC
    have b := mul_nonneg hN hS
    have c := mul_nonneg hC hS
    have d := mul_nonneg a hS
    nlinarith
  have e6 := mul_le_mul_of_nonneg_left e5 (show 0 ≤ P * η by positivity)
  calc g ≤ P * η * (40 * (N * C) + S + N + 1) := by linarith
    _ ≤ _ := e6
    _ = _ := by ring

/-- the product of a coefficient and a computed sum -/
theorem sumCoef_appr (A : Accurate lib val u w η Ω) (hu : u ≤ 1 / 64) (hη : η ≤ 1 / 1000) {c C : ℝ} (hc : |c| ≤ C) (hC : C ≤ 32) {N : Nat} {r : F} {V G S : ℝ}
    (h : Appr val u (N + 5) r V G ((1 + u) ^ N * (40 * N * η))) (hG : G ≤ S) (hr : |val r| ≤ 64) :
    Appr val u (N + 7) (lib.cast c * r) (c * V) (C * G) (45 * (N + 1) * η * (1 + C) * (1 + S) * (1 + u) ^ (N + 8)) := by
  have hu0 := A.u_nonneg
  have hη0 := A.eta_nonneg
  have hC0 : 0 ≤ C := (abs_nonneg _).trans hc
  have hG0 : 0 ≤ G := (abs_nonneg _).trans h.2.1
  have hcast := (Appr.cast A (r := c) (by linarith)).mono hu0 le_rfl hc le_rfl
  have rc : |val (lib.cast c)| ≤ 64 := by
    have := hcast.range hu0 hu (by norm_num) hC hη
    linarith
  have m := Appr.mul A hcast h rc hr
  refine m.mono hu0 (by omega) le_rfl (sumCoef_real (u := u) (G := G) hη0 hη (Nat.cast_nonneg N) hC0 hG0 hG (one_le_pow₀ (by linarith)) ?_)
  have p : ∀ k ≤ N + 8, (1 + u) ^ k ≤ (1 + u) ^ (N + 8) := fun k hk => pow_le_pow_right₀ (by linarith) hk
  have e : (1 + u) * ((1 + u) ^ 1 * C * ((1 + u) ^ N * (40 * N * η)) + (1 + u) ^ (N + 5) * G * η + η * ((1 + u) ^ N * (40 * N * η))) + η =
      (1 + u) ^ (N + 2) * (C * (40 * N * η)) + (1 + u) ^ (N + 6) * (G * η) + (1 + u) ^ (N + 1) * (η * (40 * N * η)) + η := by
    rw [show N + 2 = N + 1 + 1 from rfl, show N + 6 = N + 5 + 1 from rfl, pow_succ, pow_succ, pow_succ (1 + u) (N + 5)]; ring
  refine (le_of_eq e).trans ?_
  have q1 := mul_le_mul_of_nonneg_right (p (N + 2) (by omega)) (show 0 ≤ C * (40 * N * η) by positivity)
  have q2 := mul_le_mul_of_nonneg_right (p (N + 6) (by omega)) (show 0 ≤ G * η by positivity)
  have q3 := mul_le_mul_of_nonneg_right (p (N + 1) (by omega)) (show 0 ≤ η * (40 * N * η) by positivity)
  linarith

/-- the sum of a range as an approximation -/
theorem rangeSum_appr (A : Accurate lib val u w η Ω) (Z : AddZero val Ω) {L N : Nat} (hL : L ≤ N) (hL0 : 1 ≤ L) {f : Nat → F} {g G : Nat → ℝ}
    (h : ∀ i < L, Appr val u 6 (f i) (g i) (G i) (40 * η)) {r : F} (hr : ReducesTo ((List.range L).map f) r) {S : ℝ}
    (hS : ∑ i ∈ Finset.range L, G i = S) (hΩ : (1 + u) ^ (N + 6) * (S + 40 * N * η) ≤ Ω) :
    Appr val u (N + 5) r (∑ i ∈ Finset.range L, g i) S ((1 + u) ^ N * (40 * N * η)) := by
  have hu0 := A.u_nonneg
  have hη0 := A.eta_nonneg
  have hG0 : ∀ i < L, 0 ≤ G i := fun i hi => (abs_nonneg _).trans (h i hi).2.1
  have hS0 : 0 ≤ S := hS ▸ Finset.sum_nonneg fun i hi => hG0 i (Finset.mem_range.1 hi)
  have sum_eq : ∀ q : Nat → ℝ, ((List.range L).map q).sum = ∑ i ∈ Finset.range L, q i := fun q => by
    clear hr hS hΩ hL hL0 h hG0
    induction L with
    | zero => rfl
    | succ L ih => rw [List.range_succ, List.map_append, List.sum_append, ih, Finset.sum_range_succ]; simp
  have hδ : ((List.range L).map fun _ => 40 * η).sum = L * (40 * η) := by rw [sum_eq]; simp
  have hLN : (L : ℝ) * (40 * η) ≤ 40 * N * η := by
    have : (L : ℝ) ≤ N := by exact_mod_cast hL
    nlinarith
  have k := reducesTo_appr A Z (k := 6) (g := g) (G := G) (δ := fun _ => 40 * η) (fun i hi => h i (List.mem_range.1 hi)) hr (by
    rw [sum_eq, hS, hδ, List.length_range]
    refine le_trans ?_ hΩ
    have a1 : (1 + u) ^ L ≤ (1 + u) ^ N := pow_le_pow_right₀ (by linarith) hL
    have a2 : 1 ≤ (1 + u) ^ 6 := one_le_pow₀ (by linarith)
    have a3 : (1 + u) ^ 6 * S + L * (40 * η) ≤ (1 + u) ^ 6 * (S + 40 * N * η) := by
      have : 40 * N * η ≤ (1 + u) ^ 6 * (40 * N * η) := le_mul_of_one_le_left (by positivity) a2
      linarith
    rw [pow_add, mul_assoc]
    exact mul_le_mul a1 a3 (by positivity) (by positivity))
  rw [sum_eq, sum_eq, hS, hδ, List.length_range] at k
  refine ⟨k.trans (add_le_add ?_ ?_), ?_, by positivity⟩
  · refine mul_le_mul_of_nonneg_right (sub_le_sub_right (pow_le_pow_right₀ (by linarith) (by omega)) _) hS0
  · exact mul_le_mul (pow_le_pow_right₀ (by linarith) (by omega)) hLN (by positivity) (by positivity)
  · rw [← hS]
    exact (Finset.abs_sum_le_sum_abs _ _).trans (Finset.sum_le_sum fun i hi => (h i (Finset.mem_range.1 hi)).2.1)

/-! ## the work items -/

/-- magnitudes of the contributions of the work items -/
noncomputable def itemMag (p : PauliOp) (q : U64 → ℝ) (i : Nat) : ℝ :=
  if p.x = 0 then q (BitVec.ofNat 64 i)
  else q (insertZeroAt (BitVec.ofNat 64 i) (pivotOf p.x)) + q (insertZeroAt (BitVec.ofNat 64 i) (pivotOf p.x) ^^^ p.x)

/-- the number of work items -/
def itemCount (p : PauliOp) (n : Nat) : Nat := if p.x = 0 then 2 ^ n else 2 ^ n >>> 1

theorem itemCount_le (p : PauliOp) (n : Nat) : itemCount p n ≤ 2 ^ n := by
  unfold itemCount
  split
  · exact le_rfl
  · rw [Nat.shiftRight_eq_div_pow]; exact Nat.div_le_self _ _

theorem itemCount_pos {p : PauliOp} {n : Nat} (hx : p.x.toNat < 2 ^ n) : 1 ≤ itemCount p n := by
  unfold itemCount
  split
  · exact Nat.one_le_two_pow
  · rename_i h0
    have h1 : p.x.toNat ≠ 0 := fun h => h0 (BitVec.eq_of_toNat_eq h)
    have h2 : 1 ≤ n := by
      rcases Nat.eq_zero_or_pos n with rfl | h
      · rw [pow_zero] at hx; omega
      · exact h
    rw [Nat.shiftRight_eq_div_pow, Nat.le_div_iff_mul_le (by norm_num)]
    calc 1 * 2 ^ 1 = 2 ^ 1 := one_mul _
      _ ≤ 2 ^ n := Nat.pow_le_pow_right (by norm_num) h2

theorem itemMag_sum {n : Nat} (hn : n ≤ 64) {p : PauliOp} (hx : p.x.toNat < 2 ^ n) (q : U64 → ℝ) :
    ∑ i ∈ Finset.range (itemCount p n), itemMag p q i = ∑ j ∈ indices (2 ^ n), q j := by
  unfold itemCount itemMag
  by_cases h0 : p.x = 0
  · simp only [if_pos h0]
    rw [sum_indices (Nat.pow_le_pow_right (by norm_num) hn)]
  · simp only [if_neg h0]
    exact half_sum (flipOK_zero hn hx) h0 q

theorem pauliExpItem_appr (A : Accurate lib val u w η Ω) (hu : u ≤ 1 / 64) (hη : η ≤ 1 / 1000) {n : Nat} (hn : n ≤ 64) {m : U64 → Cx F}
    (hm : ∀ j : U64, j.toNat < 2 ^ n → ‖⟪m j⟫‖ ≤ 4) {p : PauliOp} (hx : p.x.toNat < 2 ^ n) {i : Nat} (hi : i < itemCount p n) :
    ∃ (x : F) (X : ℝ), pauliExpItemF lib (2 ^ n) m p (BitVec.ofNat 64 i) = .ok x ∧
      pauliExpItemF exactLib (2 ^ n) (fun j => ⟪m j⟫) p (BitVec.ofNat 64 i) = .ok X ∧
      Appr val u 6 x X (itemMag p (fun j => Complex.normSq ⟪m j⟫) i) (40 * η) := by
  have hu0 := A.u_nonneg
  have hη0 := A.eta_nonneg
  unfold pauliExpItemF itemMag
  unfold itemCount at hi
  by_cases h0 : p.x = 0
  · simp only [if_pos h0] at hi ⊢
    have hb : (BitVec.ofNat 64 i).toNat < 2 ^ n := by rw [toNat_ofNat_lt hn hi]; exact hi
    rw [readAt_ok hb, readAt_ok hb]
    refine ⟨_, _, rfl, rfl, ?_⟩
    generalize BitVec.ofNat 64 i = b at *
    have h := ((conjMul_appr A hu (hη.trans (by norm_num)) (hm b hb) (hm b hb)).1).mono hu0 (k' := 6) (by norm_num)
      (G' := Complex.normSq ⟪m b⟫) (le_of_eq (by rw [← Complex.sq_norm, sq])) (δ' := 40 * η) (by nlinarith)
    split
    · exact h.neg A
    · exact h
  · simp only [if_neg h0] at hi ⊢
    obtain ⟨m0, m1⟩ := half_mem (flipOK_zero hn hx) h0 hi
    rw [readAt_ok m0, readAt_ok m1, readAt_ok m0, readAt_ok m1]
    refine ⟨_, _, rfl, rfl, ?_⟩
    generalize insertZeroAt (BitVec.ofNat 64 i) (pivotOf p.x) = b0 at *
    generalize b0 ^^^ p.x = b1 at *
    have t := (pairTerm_appr A hu hη (hm b0 m0) (hm b1 m1) (popcount (p.x &&& p.z))).mono hu0 le_rfl (two_mul_norms _ _) le_rfl
    rw [conjC_exact, timesC_exact, phase90F_exact]
    split
    · exact t.neg A
    · exact t

theorem pauliTransItem_appr (A : Accurate lib val u w η Ω) (hu : u ≤ 1 / 64) (hη : η ≤ 1 / 1000) {n : Nat} (hn : n ≤ 64) {bra ket : U64 → Cx F}
    (hb : ∀ j : U64, j.toNat < 2 ^ n → ‖⟪bra j⟫‖ ≤ 2) (hk : ∀ j : U64, j.toNat < 2 ^ n → ‖⟪ket j⟫‖ ≤ 2) {p : PauliOp} (hx : p.x.toNat < 2 ^ n)
    {i : Nat} (hi : i < itemCount p n) :
    ∃ (x : Cx F) (X : ℂ), pauliTransItemF (2 ^ n) (2 ^ n) bra ket p (BitVec.ofNat 64 i) = .ok x ∧
      pauliTransItemF (F := ℝ) (2 ^ n) (2 ^ n) (fun j => ⟪bra j⟫) (fun j => ⟪ket j⟫) p (BitVec.ofNat 64 i) = .ok X ∧
      ApprC val u 6 x X (itemMag p (fun j => pairMag (fun j => ⟪bra j⟫) (fun j => ⟪ket j⟫) j / 2) i) (40 * η) := by
  have hu0 := A.u_nonneg
  have hη0 := A.eta_nonneg
  unfold pauliTransItemF itemMag pairMag
  unfold itemCount at hi
  by_cases h0 : p.x = 0
  · simp only [if_pos h0] at hi ⊢
    have hm : (BitVec.ofNat 64 i).toNat < 2 ^ n := by rw [toNat_ofNat_lt hn hi]; exact hi
    rw [readAt_ok hm, readAt_ok hm, readAt_ok hm, readAt_ok hm]
    refine ⟨_, _, rfl, rfl, ?_⟩
    generalize BitVec.ofNat 64 i = b at *
    have h := ((amp_appr A hu hη (hb b hm) (hk b hm)).1).mono hu0 (k' := 6) (by norm_num)
      (G' := (Complex.normSq ⟪bra b⟫ + Complex.normSq ⟪ket b⟫) / 2) (by linarith [two_mul_norms ⟪bra b⟫ ⟪ket b⟫]) (δ' := 40 * η) (by nlinarith)
    exact h.signed A _
  · simp only [if_neg h0] at hi ⊢
    obtain ⟨m0, m1⟩ := half_mem (flipOK_zero hn hx) h0 hi
    rw [readAt_ok m0, readAt_ok m1, readAt_ok m0, readAt_ok m1, readAt_ok m0, readAt_ok m1, readAt_ok m0, readAt_ok m1]
    refine ⟨_, _, rfl, rfl, ?_⟩
    generalize insertZeroAt (BitVec.ofNat 64 i) (pivotOf p.x) = b0 at *
    generalize b0 ^^^ p.x = b1 at *
    obtain ⟨G, -, g2, t⟩ := flipPair_appr A hu hη (hb b0 m0) (hb b1 m1) (hk b0 m0) (hk b1 m1) (oddParity (b0 &&& p.z)) (oddParity (b1 &&& p.z))
      (popcount (p.x &&& p.z))
    simp only [conjC_exact, phase90F_exact]
    exact t.mono hu0 (by norm_num) (by linarith) (by linarith)

/-! ## the functions -/

theorem pauliRange {u η N C S R : ℝ} {P : ℝ} (hη0 : 0 ≤ η) (hN : 0 ≤ N) (hC : 0 ≤ C) (hS : 0 ≤ S) (hP : 0 ≤ P)
    (h : P * ((1 + C) * S + 100 * (N + 1) * η * (1 + C) * (1 + S)) ≤ R) :
    P * (S + 40 * N * η) ≤ R ∧ P * (C * S + 45 * (N + 1) * η * (1 + C) * (1 + S)) ≤ R := by
  have a : 0 ≤ C * S := mul_nonneg hC hS
  have b : 0 ≤ (N + 1) * η := by positivity
  have c : (N + 1) * η ≤ (N + 1) * η * ((1 + C) * (1 + S)) := le_mul_of_one_le_right b (by nlinarith)
  have d : 100 * (N + 1) * η * (1 + C) * (1 + S) = 100 * ((N + 1) * η * ((1 + C) * (1 + S))) := by ring
  have d' : 45 * (N + 1) * η * (1 + C) * (1 + S) = 45 * ((N + 1) * η * ((1 + C) * (1 + S))) := by ring
  constructor
  · refine (mul_le_mul_of_nonneg_left ?_ hP).trans h
    rw [d]; nlinarith
  · refine (mul_le_mul_of_nonneg_left ?_ hP).trans h
    rw [d, d']; nlinarith

theorem pauliExpectation_reduction (A : Accurate lib val u w η Ω) (Z : AddZero val Ω) (hu : u ≤ 1 / 64) (hη : η ≤ 1 / 1000) {n : Nat} (hn : n ≤ 64)
    {m : U64 → Cx F} (hm : ∀ j : U64, j.toNat < 2 ^ n → ‖⟪m j⟫‖ ≤ 4) {p : PauliOp} (hx : p.x.toNat < 2 ^ n) (hc : ‖p.coef‖ ≤ 32) {S : ℝ}
    (hS : S = normSq (2 ^ n) fun j => ⟪m j⟫)
    (hR : (1 + u) ^ (2 ^ n + 9) * ((1 + ‖p.coef‖) * S + 100 * (((2 ^ n : ℕ) : ℝ) + 1) * η * (1 + ‖p.coef‖) * (1 + S)) ≤ 64) :
    (∃ s, p.ExpectationF lib (2 ^ n) m (.ok s)) ∧ ∀ r, p.ExpectationF lib (2 ^ n) m r → ∃ s, r = .ok s ∧
      |val s.re - (inner (2 ^ n) (fun j => ⟪m j⟫) (PauliAct p fun j => ⟪m j⟫)).re| ≤ pauliErr u η (2 ^ n) ‖p.coef‖ S ∧
      |val s.im - (inner (2 ^ n) (fun j => ⟪m j⟫) (PauliAct p fun j => ⟪m j⟫)).im| ≤ pauliErr u η (2 ^ n) ‖p.coef‖ S := by
  have hu0 := A.u_nonneg
  have hη0 := A.eta_nonneg
  have hΩ := A.big
  have hS0 : 0 ≤ S := hS ▸ Finset.sum_nonneg fun _ _ => Complex.normSq_nonneg _
  have hex : ∀ i : Nat, ∃ xX : F × ℝ, i < itemCount p n → pauliExpItemF lib (2 ^ n) m p (BitVec.ofNat 64 i) = .ok xX.1 ∧
      pauliExpItemF exactLib (2 ^ n) (fun j => ⟪m j⟫) p (BitVec.ofNat 64 i) = .ok xX.2 ∧
      Appr val u 6 xX.1 xX.2 (itemMag p (fun j => Complex.normSq ⟪m j⟫) i) (40 * η) := by
    intro i
    by_cases h : i < itemCount p n
    · obtain ⟨x, X, a⟩ := pauliExpItem_appr A hu hη hn hm hx h
      exact ⟨(x, X), fun _ => a⟩
    · exact ⟨(0, 0), fun h' => absurd h' h⟩
  choose xX hxX using hex
  have hval : inner (2 ^ n) (fun j => ⟪m j⟫) (PauliAct p fun j => ⟪m j⟫) = p.coef * ((∑ i ∈ Finset.range (itemCount p n), (xX i).2 : ℝ) : ℂ) := by
    have h1 := expectation_spec p hn hx (fun j => ⟪m j⟫)
    rw [pauliExpectation_exact] at h1
    change Except.map _ (reduceSum (itemCount p n) _) = _ at h1
    rw [reduceSum_ok (g := fun i => (xX i).2) (fun i hi => (hxX i hi).2.1)] at h1
    have h2 := Except.ok.inj h1
    rw [← h2, timesC_exact, castC_exact]
  obtain ⟨q1, q2⟩ := pauliRange (u := u) hη0 (Nat.cast_nonneg (2 ^ n)) (norm_nonneg p.coef) hS0 (by positivity) hR
  have hred := fun r => rangeReduction_ok (N := itemCount p n) (f := pauliExpItemF lib (2 ^ n) m p) (g := fun i => (xX i).1) (fun i hi => (hxX i hi).1) r
  constructor
  · obtain ⟨s, hs⟩ := reducesTo_exists ((List.range (itemCount p n)).map fun i => (xX i).1)
    exact ⟨_, _, (hred _).2 ⟨s, rfl, hs⟩, rfl⟩
  · rintro r ⟨s', hs', rfl⟩
    obtain ⟨s, rfl, hs⟩ := (hred s').1 hs'
    refine ⟨_, rfl, ?_⟩
    have k := rangeSum_appr A Z (itemCount_le p n) (itemCount_pos hx) (fun i hi => (hxX i hi).2.2) hs
      ((itemMag_sum hn hx _).trans hS.symm) (by
        refine le_trans (mul_le_mul_of_nonneg_right (pow_le_pow_right₀ (by linarith) (by omega)) (by positivity)) (q1.trans hΩ))
    have kr : |val s| ≤ 64 := by
      refine k.abs_le.trans (le_trans ?_ q1)
      have a1 : (1 + u) ^ (2 ^ n + 5) ≤ (1 + u) ^ (2 ^ n + 9) := pow_le_pow_right₀ (by linarith) (by omega)
      have a2 : (1 + u) ^ (2 ^ n) ≤ (1 + u) ^ (2 ^ n + 9) := pow_le_pow_right₀ (by linarith) (by omega)
      rw [mul_add]
      exact add_le_add (mul_le_mul_of_nonneg_right a1 hS0) (mul_le_mul_of_nonneg_right a2 (by positivity))
    have c1 := sumCoef_appr A hu hη (Complex.abs_re_le_norm p.coef) hc k le_rfl kr
    have c2 := sumCoef_appr A hu hη (Complex.abs_im_le_norm p.coef) hc k le_rfl kr
    have fin : (((1 : ℝ) + u) ^ (2 ^ n + 7) - 1) * (‖p.coef‖ * S) +
        45 * (((2 ^ n : ℕ) : ℝ) + 1) * η * (1 + ‖p.coef‖) * (1 + S) * (1 + u) ^ (2 ^ n + 8) ≤ pauliErr u η (2 ^ n) ‖p.coef‖ S := by
      unfold pauliErr
      refine add_le_add (mul_le_mul_of_nonneg_right (sub_le_sub_right (pow_le_pow_right₀ (by linarith) (by omega)) _) (by positivity)) ?_
      refine mul_le_mul ?_ (pow_le_pow_right₀ (by linarith) (by omega)) (by positivity) (by positivity)
      have : 0 ≤ (((2 ^ n : ℕ) : ℝ) + 1) * η * (1 + ‖p.coef‖) * (1 + S) := by positivity
      linarith
    rw [hval, Complex.re_mul_ofReal, Complex.im_mul_ofReal]
    exact ⟨c1.1.trans fin, c2.1.trans fin⟩

theorem pauliTransition_reduction (A : Accurate lib val u w η Ω) (Z : AddZero val Ω) (hu : u ≤ 1 / 64) (hη : η ≤ 1 / 1000) {n : Nat} (hn : n ≤ 64)
    {bra ket : U64 → Cx F} (hb : ∀ j : U64, j.toNat < 2 ^ n → ‖⟪bra j⟫‖ ≤ 2) (hk : ∀ j : U64, j.toNat < 2 ^ n → ‖⟪ket j⟫‖ ≤ 2) {p : PauliOp}
    (hx : p.x.toNat < 2 ^ n) (hc : ‖p.coef‖ ≤ 32) {S : ℝ} (hS : S = normSq (2 ^ n) (fun j => ⟪bra j⟫) + normSq (2 ^ n) fun j => ⟪ket j⟫)
    (hR : (1 + u) ^ (2 ^ n + 9) * ((1 + ‖p.coef‖) * S + 100 * (((2 ^ n : ℕ) : ℝ) + 1) * η * (1 + ‖p.coef‖) * (1 + S)) ≤ 64) :
    (∃ s, p.TransitionF lib (2 ^ n) (2 ^ n) bra ket (.ok s)) ∧ ∀ r, p.TransitionF lib (2 ^ n) (2 ^ n) bra ket r → ∃ s, r = .ok s ∧
      |val s.re - (inner (2 ^ n) (fun j => ⟪bra j⟫) (PauliAct p fun j => ⟪ket j⟫)).re| ≤ pauliErr u η (2 ^ n) ‖p.coef‖ S ∧
      |val s.im - (inner (2 ^ n) (fun j => ⟪bra j⟫) (PauliAct p fun j => ⟪ket j⟫)).im| ≤ pauliErr u η (2 ^ n) ‖p.coef‖ S := by
  have hu0 := A.u_nonneg
  have hη0 := A.eta_nonneg
  have hΩ := A.big
  have hS0 : 0 ≤ S := hS ▸ add_nonneg (Finset.sum_nonneg fun _ _ => Complex.normSq_nonneg _) (Finset.sum_nonneg fun _ _ => Complex.normSq_nonneg _)
  obtain ⟨q, hq⟩ : ∃ q : U64 → ℝ, q = fun j => pairMag (fun j => ⟪bra j⟫) (fun j => ⟪ket j⟫) j / 2 := ⟨_, rfl⟩
  have hqS : ∑ j ∈ indices (2 ^ n), q j = S / 2 := by
    rw [hq, ← Finset.sum_div, hS]
    congr 1
    exact Finset.sum_add_distrib
  have hex : ∀ i : Nat, ∃ xX : Cx F × ℂ, i < itemCount p n → pauliTransItemF (2 ^ n) (2 ^ n) bra ket p (BitVec.ofNat 64 i) = .ok xX.1 ∧
      pauliTransItemF (F := ℝ) (2 ^ n) (2 ^ n) (fun j => ⟪bra j⟫) (fun j => ⟪ket j⟫) p (BitVec.ofNat 64 i) = .ok xX.2 ∧
      ApprC val u 6 xX.1 xX.2 (itemMag p q i) (40 * η) := by
    intro i
    by_cases h : i < itemCount p n
    · obtain ⟨x, X, a⟩ := pauliTransItem_appr A hu hη hn hb hk hx h
      rw [← hq] at a
      exact ⟨(x, X), fun _ => a⟩
    · exact ⟨(0, 0), fun h' => absurd h' h⟩
  choose xX hxX using hex
  have hval : inner (2 ^ n) (fun j => ⟪bra j⟫) (PauliAct p fun j => ⟪ket j⟫) = p.coef * ∑ i ∈ Finset.range (itemCount p n), (xX i).2 := by
    have h1 := transition_spec p hn hx (fun j => ⟪bra j⟫) (fun j => ⟪ket j⟫)
    rw [pauliTransition_exact] at h1
    change Except.map _ (reduceSum (itemCount p n) _) = _ at h1
    rw [reduceSum_ok (g := fun i => (xX i).2) (fun i hi => (hxX i hi).2.1)] at h1
    have h2 := Except.ok.inj h1
    rw [← h2, castC_exact]
  obtain ⟨q1, q2⟩ := pauliRange (u := u) hη0 (Nat.cast_nonneg (2 ^ n)) (norm_nonneg p.coef) hS0 (by positivity) hR
  have hred := fun r => rangeReduction_ok (N := itemCount p n) (f := pauliTransItemF (2 ^ n) (2 ^ n) bra ket p) (g := fun i => (xX i).1)
    (fun i hi => (hxX i hi).1) r
  constructor
  · obtain ⟨s, hs⟩ := reducesTo_exists ((List.range (itemCount p n)).map fun i => (xX i).1)
    exact ⟨_, _, (hred _).2 ⟨s, rfl, hs⟩, rfl⟩
  · rintro r ⟨s', hs', rfl⟩
    obtain ⟨s, rfl, hs⟩ := (hred s').1 hs'
    refine ⟨_, rfl, ?_⟩
    have r1 := reducesTo_re hs
    have r2 := reducesTo_im hs
    rw [List.map_map] at r1 r2
    have hΩ' : (1 + u) ^ (2 ^ n + 6) * (S / 2 + 40 * ((2 ^ n : ℕ) : ℝ) * η) ≤ Ω := by
      refine le_trans (mul_le_mul (pow_le_pow_right₀ (by linarith) (by omega)) (add_le_add (by linarith) le_rfl) (by positivity) (by positivity)) (q1.trans hΩ)
    have k1 := rangeSum_appr A Z (itemCount_le p n) (itemCount_pos hx) (fun i hi => (hxX i hi).2.2.1) r1 ((itemMag_sum hn hx _).trans hqS) hΩ'
    have k2 := rangeSum_appr A Z (itemCount_le p n) (itemCount_pos hx) (fun i hi => (hxX i hi).2.2.2) r2 ((itemMag_sum hn hx _).trans hqS) hΩ'
    have range : ∀ {x : F} {X : ℝ}, Appr val u (2 ^ n + 5) x X (S / 2) ((1 + u) ^ (2 ^ n) * (40 * ((2 ^ n : ℕ) : ℝ) * η)) → |val x| ≤ 64 := by
      intro x X k
      refine k.abs_le.trans (le_trans ?_ q1)
      have a1 : (1 + u) ^ (2 ^ n + 5) ≤ (1 + u) ^ (2 ^ n + 9) := pow_le_pow_right₀ (by linarith) (by omega)
      have a2 : (1 + u) ^ (2 ^ n) ≤ (1 + u) ^ (2 ^ n + 9) := pow_le_pow_right₀ (by linarith) (by omega)
      rw [mul_add]
      exact add_le_add (mul_le_mul a1 (by linarith) (by linarith) (by positivity)) (mul_le_mul_of_nonneg_right a2 (by positivity))
    have range2 : ∀ {x : F} {X : ℝ}, Appr val u (2 ^ n + 7) x X (‖p.coef‖ * (S / 2))
        (45 * (((2 ^ n : ℕ) : ℝ) + 1) * η * (1 + ‖p.coef‖) * (1 + S) * (1 + u) ^ (2 ^ n + 8)) → |val x| ≤ 64 := by
      intro x X k
      refine k.abs_le.trans (le_trans ?_ q2)
      have a1 : (1 + u) ^ (2 ^ n + 7) ≤ (1 + u) ^ (2 ^ n + 9) := pow_le_pow_right₀ (by linarith) (by omega)
      have a2 : (1 + u) ^ (2 ^ n + 8) ≤ (1 + u) ^ (2 ^ n + 9) := pow_le_pow_right₀ (by linarith) (by omega)
      have hD : 0 ≤ 45 * (((2 ^ n : ℕ) : ℝ) + 1) * η * (1 + ‖p.coef‖) * (1 + S) := by positivity
      generalize 45 * (((2 ^ n : ℕ) : ℝ) + 1) * η * (1 + ‖p.coef‖) * (1 + S) = D at hD ⊢
      rw [mul_add, mul_comm D]
      refine add_le_add (mul_le_mul a1 (mul_le_mul_of_nonneg_left (by linarith) (norm_nonneg _)) (by positivity) (by positivity))
        (mul_le_mul_of_nonneg_right a2 hD)
    have hS2 : S / 2 ≤ S := by linarith
    have c1 := sumCoef_appr A hu hη (Complex.abs_re_le_norm p.coef) hc k1 hS2 (range k1)
    have c2 := sumCoef_appr A hu hη (Complex.abs_im_le_norm p.coef) hc k2 hS2 (range k2)
    have c3 := sumCoef_appr A hu hη (Complex.abs_re_le_norm p.coef) hc k2 hS2 (range k2)
    have c4 := sumCoef_appr A hu hη (Complex.abs_im_le_norm p.coef) hc k1 hS2 (range k1)
    have s1 := Appr.sub A c1 c2 (range2 c1) (range2 c2)
    have s2 := Appr.add A c3 c4 ((range2 c3).trans hΩ) ((range2 c4).trans hΩ)
    have fin : (((1 : ℝ) + u) ^ (2 ^ n + 7 + 1) - 1) * (‖p.coef‖ * (S / 2) + ‖p.coef‖ * (S / 2)) +
        (1 + u) * (45 * (((2 ^ n : ℕ) : ℝ) + 1) * η * (1 + ‖p.coef‖) * (1 + S) * (1 + u) ^ (2 ^ n + 8) +
          45 * (((2 ^ n : ℕ) : ℝ) + 1) * η * (1 + ‖p.coef‖) * (1 + S) * (1 + u) ^ (2 ^ n + 8)) ≤ pauliErr u η (2 ^ n) ‖p.coef‖ S := by
      unfold pauliErr
      refine add_le_add (le_of_eq (by ring)) ?_
      have e : (1 + u) ^ (2 ^ n + 9) = (1 + u) * (1 + u) ^ (2 ^ n + 8) := by rw [← pow_succ']
      rw [e]
      have : 0 ≤ (((2 ^ n : ℕ) : ℝ) + 1) * η * (1 + ‖p.coef‖) * (1 + S) * ((1 + u) * (1 + u) ^ (2 ^ n + 8)) := by positivity
      linarith
    have sumRe : ∀ s : Finset ℕ, (∑ i ∈ s, (xX i).2).re = ∑ i ∈ s, (xX i).2.re := fun s => Complex.re_sum _ _
    have sumIm : ∀ s : Finset ℕ, (∑ i ∈ s, (xX i).2).im = ∑ i ∈ s, (xX i).2.im := fun s => Complex.im_sum _ _
    rw [hval, Complex.mul_re, Complex.mul_im, sumRe, sumIm]
    exact ⟨s1.1.trans fin, s2.1.trans fin⟩

end

end Verif.Proofs
