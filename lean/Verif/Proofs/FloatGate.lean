import Verif.Proofs.FloatKernel
import Verif.Proofs.FloatRows
import Verif.Proofs.FloatExact
import Verif.Proofs.DensityUpdate
import Verif.Proofs.GateDescFacts

/-! # Rounding errors of the gates -/

namespace Verif.Proofs
open Verif Verif.Spec Verif.Model
attribute [-simp] BitVec.getLsbD_eq_getElem

theorem rowOp_exact (s : Bool) (x y a b : ℂ) : rowOp s x y a b = x * a + y * b := by
  unfold rowOp
  split
  · rw [laneAdd_eq, laneMul_eq, laneMul_eq]
  · rfl

theorem mulOp_exact (s : Bool) (z a : ℂ) : mulOp s z a = a * z := by
  unfold mulOp
  split
  · rw [laneMul_eq, mul_comm]
  · rfl

section
variable {F : Type} [Zero F] [One F] [Add F] [Sub F] [Mul F] [Neg F] {lib : FloatLib F} {val : F → ℝ} {u w η Ω ε : ℝ}
  {L B n q : Nat} {t c v : U64}

local notation "⟪" x "⟫" => cval val x

/-- one row of errors, relaxed -/
theorem relax {C D δ k l S x : ℝ} (hx : x ≤ (δ + k) * S + l) (hS : 0 ≤ S) (hC : δ + k ≤ C) (hD : l ≤ D) : x ≤ C * S + D := by
  nlinarith

theorem close_dense1 (A : Accurate lib val u w η Ω) (hε : u + η ≤ ε) (h4 : ε ≤ 1 / 400) (hL : LanesOK L) (h : MasksOK B n t c v)
    (hq : IsBit t q) {M : M22 (Cx F)} {N : M22 ℂ}
    (hn : Near val M.m00 N.m00 (80 * ε) ∧ Near val M.m01 N.m01 (80 * ε) ∧ Near val M.m10 N.m10 (80 * ε) ∧ Near val M.m11 N.m11 (80 * ε))
    (h1 : ‖N.m00‖ ≤ 1 ∧ ‖N.m01‖ ≤ 1 ∧ ‖N.m10‖ ≤ 1 ∧ ‖N.m11‖ ≤ 1) :
    CloseTo (B * 2 ^ n) val ε η (dense1 L n t c v M (B * 2 ^ n)) (dense1 L n t c v N (B * 2 ^ n)) := by
  have hu0 := A.u_nonneg
  have hη0 := A.eta_nonneg
  have hu : u ≤ 1 / 64 := by linarith
  have hη : η ≤ 1 / 64 := by linarith
  obtain ⟨n00, n01, n10, n11⟩ := hn
  obtain ⟨l00, l01, l10, l11⟩ := h1
  refine closeTo_one (by linarith) hη0 h hq (fun m => dense1_any hL h hq M m) (fun m => dense1_any hL h hq N m)
    (C := 90 * ε) (D := 25 * η) (by linarith) le_rfl (by linarith) le_rfl ?_ ?_
  · intro a b ha hb
    rw [rowOp_exact]
    exact relax (row_err A hu hη _ n00 n01 l00 l01 (by linarith) ha hb) (by positivity) (by linarith) (by linarith)
  · intro a b ha hb
    rw [rowOp_exact]
    exact relax (row_err A hu hη _ n10 n11 l10 l11 (by linarith) ha hb) (by positivity) (by linarith) (by linarith)

/-- a product by a coefficient, relaxed to the error of a pair -/
theorem coef_pair (A : Accurate lib val u w η Ω) (hε : u + η ≤ ε) (h4 : ε ≤ 1 / 400) {x : Cx F} {X : ℂ} (hx : Near val x X (80 * ε))
    (hX : ‖X‖ ≤ 1) (a b : Cx F) (ha : ‖⟪a⟫‖ ≤ 4) : ‖⟪a * x⟫ - ⟪a⟫ * X‖ ≤ 90 * ε * (‖⟪a⟫‖ + ‖⟪b⟫‖) + 25 * η := by
  have hu0 := A.u_nonneg
  have hη0 := A.eta_nonneg
  have h := mul_coef A (by linarith) (by linarith) hx hX (by linarith) (a := a) (by linarith)
  have e := relax (C := 90 * ε) (D := 25 * η) h (norm_nonneg _) (by linarith) (by linarith)
  have : 0 ≤ 90 * ε * ‖⟪b⟫‖ := mul_nonneg (by linarith) (norm_nonneg _)
  linarith

theorem zero_pair (A : Accurate lib val u w η Ω) (hε : u + η ≤ ε) (x : ℂ) (a b : ℝ) (ha : 0 ≤ a) (hb : 0 ≤ b) :
    ‖x - x‖ ≤ 90 * ε * (a + b) + 25 * η := by
  have hu0 := A.u_nonneg
  have hη0 := A.eta_nonneg
  rw [sub_self, norm_zero]
  have : 0 ≤ 90 * ε * (a + b) := mul_nonneg (by linarith) (by linarith)
  linarith

theorem close_phase (A : Accurate lib val u w η Ω) (hε : u + η ≤ ε) (h4 : ε ≤ 1 / 400) (h : MasksOK B n t c v)
    (hq : IsBit t q) {x : Cx F} {X : ℂ} (hx : Near val x X (80 * ε)) (hX : ‖X‖ ≤ 1) :
    CloseTo (B * 2 ^ n) val ε η (.par _ (phaseGate t c v x (B * 2 ^ n))) (.par _ (phaseGate t c v X (B * 2 ^ n))) := by
  have hu0 := A.u_nonneg
  have hη0 := A.eta_nonneg
  refine closeTo_one (by linarith) hη0 h hq (fun m => phaseGate_any h hq x m) (fun m => phaseGate_any h hq X m)
    (C := 90 * ε) (D := 25 * η) (by linarith) le_rfl (by linarith) le_rfl ?_ ?_
  · intro a b ha hb
    exact zero_pair A hε _ _ _ (norm_nonneg _) (norm_nonneg _)
  · intro a b ha hb
    rw [add_comm ‖⟪a⟫‖]
    exact coef_pair A hε h4 hx hX b a hb

theorem close_diag (A : Accurate lib val u w η Ω) (hε : u + η ≤ ε) (h4 : ε ≤ 1 / 400) (h : MasksOK B n t c v)
    (hq : IsBit t q) {x y : Cx F} {X Y : ℂ} (hx : Near val x X (80 * ε)) (hX : ‖X‖ ≤ 1) (hy : Near val y Y (80 * ε)) (hY : ‖Y‖ ≤ 1) :
    CloseTo (B * 2 ^ n) val ε η (.par _ (diagGate t c v x y (B * 2 ^ n))) (.par _ (diagGate t c v X Y (B * 2 ^ n))) := by
  have hu0 := A.u_nonneg
  have hη0 := A.eta_nonneg
  refine closeTo_one (by linarith) hη0 h hq (fun m => diagGate_any h hq x y m) (fun m => diagGate_any h hq X Y m)
    (C := 90 * ε) (D := 25 * η) (by linarith) le_rfl (by linarith) le_rfl ?_ ?_
  · intro a b ha hb
    exact coef_pair A hε h4 hx hX a b ha
  · intro a b ha hb
    rw [add_comm ‖⟪a⟫‖]
    exact coef_pair A hε h4 hy hY b a hb

theorem close_x (A : Accurate lib val u w η Ω) (hε : u + η ≤ ε) (h : MasksOK B n t c v) (hq : IsBit t q) :
    CloseTo (B * 2 ^ n) val ε η (.par _ (xGate t c v (B * 2 ^ n))) (.par _ (xGate t c v (B * 2 ^ n))) := by
  have hu0 := A.u_nonneg
  have hη0 := A.eta_nonneg
  refine closeTo_one (by linarith) hη0 h hq (fun m => xGate_any h hq m) (fun m => xGate_any h hq m)
    (C := 90 * ε) (D := 25 * η) (by linarith) le_rfl (by linarith) le_rfl ?_ ?_
  · intro a b ha hb
    exact zero_pair A hε _ _ _ (norm_nonneg _) (norm_nonneg _)
  · intro a b ha hb
    exact zero_pair A hε _ _ _ (norm_nonneg _) (norm_nonneg _)

theorem close_y (A : Accurate lib val u w η Ω) (hε : u + η ≤ ε) (h4 : ε ≤ 1 / 400) (h : MasksOK B n t c v)
    (hq : IsBit t q) {x y : Cx F} {X Y : ℂ} (hx : Near val x X (80 * ε)) (hX : ‖X‖ ≤ 1) (hy : Near val y Y (80 * ε)) (hY : ‖Y‖ ≤ 1) :
    CloseTo (B * 2 ^ n) val ε η (.par _ (yGate x y t c v (B * 2 ^ n))) (.par _ (yGate X Y t c v (B * 2 ^ n))) := by
  have hu0 := A.u_nonneg
  have hη0 := A.eta_nonneg
  refine closeTo_one (by linarith) hη0 h hq (fun m => yGate_any h hq x y m) (fun m => yGate_any h hq X Y m)
    (C := 90 * ε) (D := 25 * η) (by linarith) le_rfl (by linarith) le_rfl ?_ ?_
  · intro a b ha hb
    rw [add_comm ‖⟪a⟫‖]
    exact coef_pair A hε h4 hy hY b a hb
  · intro a b ha hb
    exact coef_pair A hε h4 hx hX a b ha

theorem close_zeroTarget (A : Accurate lib val u w η Ω) (hε : u + η ≤ ε) (h4 : ε ≤ 1 / 400) (hL : LanesOK L) (h : MasksOK B n 0 c v)
    (hn : n ≤ 64) {x : Cx F} {X : ℂ} (hx : Near val x X (80 * ε)) (hX : ‖X‖ ≤ 1) :
    CloseTo (B * 2 ^ n) val ε η (zeroTarget L n c v x (B * 2 ^ n)) (zeroTarget L n c v X (B * 2 ^ n)) := by
  have hu0 := A.u_nonneg
  have hη0 := A.eta_nonneg
  have hf : FlipOK B n c v 0 := ⟨h.size, by simpa using h.fits, by simp, by simp, h.sub⟩
  refine closeTo_pair (by linarith) hη0 hf (fun m => zeroTarget_any hL h x m) (fun m => zeroTarget_any hL h X m)
    (C := 90 * ε) (D := 25 * η) (by linarith) le_rfl (by linarith) le_rfl ?_
  intro j a b ha hb
  rw [mulOp_exact]
  have e := relax (C := 90 * ε) (D := 25 * η) (mulOp_err A (by linarith) (by linarith) (usesLanes L n c) hx hX (by linarith) ha)
    (norm_nonneg _) (by linarith) (by linarith)
  have : 0 ≤ 90 * ε * ‖⟪b⟫‖ := mul_nonneg (by linarith) (norm_nonneg _)
  linarith

theorem close_swap (A : Accurate lib val u w η Ω) (hε : u + η ≤ ε) {a b : Nat} {cs vs : List Nat} {o : Operands}
    (h : mkOperands [a, b] cs vs = .ok o) (hb : ∀ q, q ∈ [a, b] ∨ q ∈ cs → q < n) (hsize : B * 2 ^ n ≤ 2 ^ 64) :
    CloseTo (B * 2 ^ n) val ε η (.par _ (swapGate o.t o.c o.v (B * 2 ^ n))) (.par _ (swapGate o.t o.c o.v (B * 2 ^ n))) := by
  have hu0 := A.u_nonneg
  have hη0 := A.eta_nonneg
  refine closeTo_exact (by linarith) hη0 fun m => ⟨_, swapGate_any h hb hsize m, ?_⟩
  have := swapGate_any h hb hsize (fun j => ⟪m j⟫)
  simp only [apply_ite (cval val)]
  exact this

theorem close_ecr (A : Accurate lib val u w η Ω) (hε : u + η ≤ ε) (h4 : ε ≤ 1 / 400) {qc qt : Nat} {pc pt : U64}
    (h : MasksOK B n (pt ||| pc) c v) (hc : IsBit pc qc) (ht : IsBit pt qt) (hne : qc ≠ qt) {i mi s : Cx F} {I MI S : ℂ}
    (hs : Near val s S (2 * ε)) (hS : ‖S‖ ≤ 1) (hi : ⟪i⟫ = I) (hI : ‖I‖ ≤ 1) (hmi : ⟪mi⟫ = MI) (hMI : ‖MI‖ ≤ 1) :
    CloseTo (B * 2 ^ n) val ε η (.par _ (ecrGate i mi s pt pc c v (B * 2 ^ n))) (.par _ (ecrGate I MI S pt pc c v (B * 2 ^ n))) := by
  have hu0 := A.u_nonneg
  have hη0 := A.eta_nonneg
  refine closeTo_two (by linarith) hη0 (BitVec.or_comm pt pc) h hc ht hne (fun m => ecrGate_any h hc ht hne i mi s m)
    (fun m => ecrGate_any h hc ht hne I MI S m)
    (C := 45 * ε) (D := 25 * η) (by linarith) le_rfl (by linarith) le_rfl ?_
  intro x y a b c d ha hb hc hd
  have pa : 0 ≤ ε * ‖⟪a⟫‖ := mul_nonneg (by linarith) (norm_nonneg _)
  have pb : 0 ≤ ε * ‖⟪b⟫‖ := mul_nonneg (by linarith) (norm_nonneg _)
  have pc : 0 ≤ ε * ‖⟪c⟫‖ := mul_nonneg (by linarith) (norm_nonneg _)
  have pd : 0 ≤ ε * ‖⟪d⟫‖ := mul_nonneg (by linarith) (norm_nonneg _)
  cases x <;> cases y <;> simp only
  · have := (ecr_err A hε h4 hs hS hi hI hb hd).1; linarith
  · have := (ecr_err A hε h4 hs hS hi hI hd hb).2; linarith
  · have := (ecr_err A hε h4 hs hS hmi hMI ha hc).1; linarith
  · have := (ecr_err A hε h4 hs hS hmi hMI hc ha).2; linarith

theorem close_dense2 (A : Accurate lib val u w η Ω) (hε : u + η ≤ ε) (h4 : ε ≤ 1 / 400) {q0 q1 : Nat} (h : MasksOK B n t c v)
    (hlt : q0 < q1) (h1 : q1 < 64) (ht : ∀ i, t.getLsbD i = (decide (i = q0) || decide (i = q1)))
    {M : Fin 4 → Fin 4 → Cx F} {N : Fin 4 → Fin 4 → ℂ} (hMN : ∀ i j, Near val (M i j) (N i j) (2 * ε)) (hN : ∀ i j, ‖N i j‖ ≤ 1) :
    CloseTo (B * 2 ^ n) val ε η (.par _ (dense2 t c v M (B * 2 ^ n))) (.par _ (dense2 t c v N (B * 2 ^ n))) := by
  have hu0 := A.u_nonneg
  have hη0 := A.eta_nonneg
  obtain ⟨hb0, hb1⟩ := lowest_bit hlt h1 ht
  have htor : t = (t &&& -t) ||| (t ^^^ (t &&& -t)) := by
    apply U64.ext; intro i hi
    rw [BitVec.getLsbD_or, hb0.2, hb1.2, ht]
  refine closeTo_two (by linarith) hη0 htor h hb0 hb1 hlt.ne (fun m => dense2_any h hlt h1 ht M m)
    (fun m => dense2_any h hlt h1 ht N m)
    (C := 45 * ε) (D := 25 * η) (by linarith) le_rfl (by linarith) le_rfl ?_
  intro x y a b c d ha hb hc hd
  have key : ∀ i, ‖⟪M i 0 * a + M i 1 * b + M i 2 * c + M i 3 * d⟫ - (N i 0 * ⟪a⟫ + N i 1 * ⟪b⟫ + N i 2 * ⟪c⟫ + N i 3 * ⟪d⟫)‖ ≤
      45 * ε * (‖⟪a⟫‖ + ‖⟪b⟫‖ + ‖⟪c⟫‖ + ‖⟪d⟫‖) + 25 * η := fun i =>
    relax (row4_err A (by linarith) (by linarith) (hMN i 0) (hMN i 1) (hMN i 2) (hMN i 3) (hN i 0) (hN i 1) (hN i 2) (hN i 3)
      (by linarith) ha hb hc hd) (by positivity) (by linarith) (by linarith)
  cases x <;> cases y <;> simp only
  · exact key 0
  · exact key 2
  · exact key 1
  · exact key 3

theorem close_pauli (A : Accurate lib val u w η Ω) (hε : u + η ≤ ε) (h4 : ε ≤ 1 / 400) {x z : U64} (h : FlipOK B n c v x)
    {co : Cx F} {Co : ℂ} (hc : Near val co Co (2 * ε)) (hCo : ‖Co‖ ≤ 1) :
    CloseTo (B * 2 ^ n) val ε η (applyPauliF c v x z co (B * 2 ^ n)) (applyPauliF c v x z Co (B * 2 ^ n)) := by
  have hu0 := A.u_nonneg
  have hη0 := A.eta_nonneg
  unfold applyPauliF
  split
  · rename_i hx
    subst hx
    refine closeTo_pair (by linarith) hη0 h (fun m => pauliDiag_any h.masks0 z co m) (fun m => pauliDiag_any h.masks0 z Co m)
      (C := 90 * ε) (D := 25 * η) (by linarith) le_rfl (by linarith) le_rfl ?_
    intro j a b ha hb
    split
    · exact coef_pair A hε h4 ((Near.neg A hc).mono (by linarith)) (by rw [norm_neg]; exact hCo) a b ha
    · exact coef_pair A hε h4 (hc.mono (by linarith)) hCo a b ha
  · rename_i hx
    refine closeTo_pair (by linarith) hη0 h (fun m => pauliFlip_any h hx z _ co m) (fun m => pauliFlip_any h hx z _ Co m)
      (C := 90 * ε) (D := 25 * η) (by linarith) le_rfl (by linarith) le_rfl ?_
    intro j a b ha hb
    obtain ⟨p1, p2⟩ := phaseM90F_val A (popcount (x &&& z))
    have e := pauli_err A hε h4 (decide (oddParity (j &&& z))) p1 p2 hc hCo hb
    have : 0 ≤ ε * ‖⟪a⟫‖ := mul_nonneg (by linarith) (norm_nonneg _)
    have : 0 ≤ ε * ‖⟪b⟫‖ := mul_nonneg (by linarith) (norm_nonneg _)
    simp only [decide_eq_true_eq] at e
    linarith

theorem cos_neg_half (a : ℝ) (co : ℂ) (h0 : co.im = 0) :
    (cosC exactLib (-halfC exactLib (scaleC a co : ℂ)) : ℂ) = ⟨Real.cos (-(a * co.re / 2)), 0⟩ ∧
    (sinC exactLib (-halfC exactLib (scaleC a co : ℂ)) : ℂ) = ⟨Real.sin (-(a * co.re / 2)), 0⟩ := by
  constructor <;> apply Complex.ext <;> simp [cosC, sinC, halfC, scaleC, exactLib, h0]

/-- the launch of a Pauli rotation with given cosine and sine of the half angle; the last lines of
`applyPauliRotationF` -/
theorem close_pauliTrig (A : Accurate lib val u w η Ω) {cs sn : Cx F} {θ : ℝ} (he : u + η ≤ ε) (h4 : ε ≤ 1 / 400)
    (hcos : Near val cs ⟨Real.cos θ, 0⟩ (6 * ε)) (hsin : Near val sn ⟨Real.sin θ, 0⟩ (6 * ε)) {x z : U64} (h : FlipOK B n c v x) :
    CloseTo (B * 2 ^ n) val ε η
      (if x = 0 then .par _ (pauliRotDiag c v z (cs - Cplx.ofParts 0 1 * sn) (cs + Cplx.ofParts 0 1 * sn) (B * 2 ^ n))
        else .par _ (pauliRotFlip (Cplx.ofParts 0 1) phaseM90F c v x z cs sn (B * 2 ^ n)))
      (if x = 0 then .par _ (pauliRotDiag c v z ((⟨Real.cos θ, 0⟩ : ℂ) - Cplx.ofParts 0 1 * ⟨Real.sin θ, 0⟩)
          (⟨Real.cos θ, 0⟩ + Cplx.ofParts 0 1 * ⟨Real.sin θ, 0⟩) (B * 2 ^ n))
        else .par _ (pauliRotFlip (Cplx.ofParts 0 1) phaseM90F c v x z (⟨Real.cos θ, 0⟩ : ℂ) ⟨Real.sin θ, 0⟩ (B * 2 ^ n))) := by
  have hu0 := A.u_nonneg
  have hη0 := A.eta_nonneg
  split
  · rename_i hx
    subst hx
    obtain ⟨⟨n1, n2⟩, l1, l2⟩ := rotDiag_near A he h4 hcos hsin
    refine closeTo_pair (by linarith) hη0 h (fun m => pauliRotDiag_any h.masks0 z _ _ m) (fun m => pauliRotDiag_any h.masks0 z _ _ m)
      (C := 90 * ε) (D := 25 * η) (by linarith) le_rfl (by linarith) le_rfl ?_
    intro j a b ha hb
    split
    · exact coef_pair A he h4 (n1.mono (by linarith)) l1 a b ha
    · exact coef_pair A he h4 (n2.mono (by linarith)) l2 a b ha
  · rename_i hx
    refine closeTo_pair (by linarith) hη0 h (fun m => pauliRotFlip_any h hx _ _ z _ _ m) (fun m => pauliRotFlip_any h hx _ _ z _ _ m)
      (C := 90 * ε) (D := 25 * η) (by linarith) le_rfl (by linarith) le_rfl ?_
    intro j a b ha hb
    obtain ⟨p1, p2⟩ := phaseM90F_val A (popcount (x &&& z) + popcount (j &&& z) % 2 * 2)
    have e := rotFlip_err A he h4 hcos hsin p1 p2 ha hb
    have : 0 ≤ ε * (‖⟪a⟫‖ + ‖⟪b⟫‖) := mul_nonneg (by linarith) (by positivity)
    refine le_trans e ?_
    linarith

/-- a Pauli rotation by an angle near `a` -/
theorem close_pauliRot (A : Accurate lib val u w η Ω) {y : F} {a : ℝ} {co : ℂ} (ha : |a| ≤ 32) (hc : |co.re| ≤ 1) (hc0 : co.im = 0)
    (hε : (u + η) * (1 + |a|) + w ≤ ε) (h4 : ε ≤ 1 / 400) (h1 : |val y - a| + w ≤ ε) (h2 : |val y| ≤ 33) {x z : U64}
    (h : FlipOK B n c v x) :
    CloseTo (B * 2 ^ n) val ε η (applyPauliRotationF lib c v x z (castC lib co : Cx F) y (B * 2 ^ n))
      (applyPauliRotationF exactLib c v x z (castC exactLib co : ℂ) a (B * 2 ^ n)) := by
  obtain ⟨⟨hcos, hsin⟩, -⟩ := rot_near A ha hc hc0 hε h4 h1 h2
  obtain ⟨e1, e2⟩ := cos_neg_half a co hc0
  have ec : (castC exactLib co : ℂ) = co := rfl
  unfold applyPauliRotationF
  simp only [ec, e1, e2]
  exact close_pauliTrig A (eps_ge A hε) h4 hcos hsin h

/-- the coefficients of a gate that enter the error bound; matrices on three or more targets and sparse matrices are
not covered -/
def CoefsOK : UGate → Prop
  | .dense g => g.mat.rows ≤ 4 ∧ ∀ i j, i < g.mat.rows → j < g.mat.cols → ‖g.mat.entry i j‖ ≤ 1
  | .sparse _ => False
  | .pauli g => ‖g.p.coef‖ ≤ 1
  | .pauliRot g _ => g.p.coef.im = 0 ∧ |g.p.coef.re| ≤ 1
  | _ => True

/-- the angles of a gate -/
noncomputable def anglesU : UGate → List ℝ
  | .globalPhase a _ => [a]
  | .one k _ => angles1 k
  | .pauliRot _ a => [a]
  | _ => []

theorem norm_half_half (a b : ℝ) (ha : |a| ≤ 1 / 2) (hb : |b| ≤ 1 / 2) : ‖(⟨a, b⟩ : ℂ)‖ ≤ 1 := by
  have := Complex.norm_le_abs_re_add_abs_im (⟨a, b⟩ : ℂ)
  simp only at this
  linarith

theorem invSqrt2_abs : |inverseSqrt2| ≤ 1 := by
  rw [abs_le]
  constructor <;> nlinarith [inverseSqrt2_sq]

theorem norm_invSqrt2_pair : ‖(⟨inverseSqrt2, inverseSqrt2⟩ : ℂ)‖ ≤ 1 ∧ ‖(⟨inverseSqrt2, -inverseSqrt2⟩ : ℂ)‖ ≤ 1 := by
  have e1 : ‖(⟨inverseSqrt2, inverseSqrt2⟩ : ℂ)‖ ^ 2 = 1 := by
    rw [← Complex.normSq_eq_norm_sq, Complex.normSq_apply]; exact inverseSqrt2_sq
  have e2 : ‖(⟨inverseSqrt2, -inverseSqrt2⟩ : ℂ)‖ ^ 2 = 1 := by
    rw [← Complex.normSq_eq_norm_sq, Complex.normSq_apply]
    have := inverseSqrt2_sq
    simp only; linarith
  constructor
  · nlinarith [norm_nonneg (⟨inverseSqrt2, inverseSqrt2⟩ : ℂ)]
  · nlinarith [norm_nonneg (⟨inverseSqrt2, -inverseSqrt2⟩ : ℂ)]

theorem close_gate1 (A : Accurate lib val u w η Ω) (hε : u + η + w ≤ ε) (h4 : ε ≤ 1 / 400) (hL : LanesOK L) {o : Operands}
    (h : MasksOK B n o.t o.c o.v) (hq : IsBit o.t q) (k : Gate1)
    (hk : ∀ a ∈ angles1 k, |a| ≤ 32 ∧ (u + η) * (1 + |a|) + w ≤ ε) :
    CloseTo (B * 2 ^ n) val ε η (gate1KernelF lib L n o (B * 2 ^ n) k : Device (Cx F))
      (gate1KernelF exactLib L n o (B * 2 ^ n) k : Device ℂ) := by
  have hu0 := A.u_nonneg
  have hη0 := A.eta_nonneg
  have hw0 := A.w_nonneg
  have he : u + η ≤ ε := by linarith
  have hI : Near val (⟨0, 1⟩ : Cx F) (⟨0, 1⟩ : ℂ) (80 * ε) := (near_self (cval_i A)).mono (by linarith)
  have hNI : Near val (⟨0, -1⟩ : Cx F) (⟨0, -1⟩ : ℂ) (80 * ε) :=
    (near_self ((cval_ni A).trans (by apply Complex.ext <;> simp))).mono (by linarith)
  have hM1 : Near val (⟨-1, 0⟩ : Cx F) (⟨-1, 0⟩ : ℂ) (80 * ε) :=
    (near_self ((cval_m1 A).trans (by apply Complex.ext <;> simp))).mono (by linarith)
  have l1 : ‖(⟨0, 1⟩ : ℂ)‖ ≤ 1 := by rw [norm_imag]; norm_num
  have l2 : ‖(⟨0, -1⟩ : ℂ)‖ ≤ 1 := by rw [norm_imag]; norm_num
  have l3 : ‖(⟨-1, 0⟩ : ℂ)‖ ≤ 1 := by rw [norm_real]; norm_num
  have hO : Near val (1 : Cx F) 1 (80 * ε) := (near_self (cval_one A)).mono (by linarith)
  have hZ : Near val (0 : Cx F) 0 (80 * ε) := (near_self (cval_zero A)).mono (by linarith)
  have hs := cast_small A invSqrt2_abs
  have hS : Near val (⟨lib.cast inverseSqrt2, 0⟩ : Cx F) ⟨inverseSqrt2, 0⟩ (80 * ε) := (Near.real hs A.zero).mono (by linarith)
  have hSn : Near val (⟨-lib.cast inverseSqrt2, 0⟩ : Cx F) ⟨-inverseSqrt2, 0⟩ (80 * ε) :=
    (Near.real (δ := u + η) (by rw [A.neg, ← neg_sub', abs_neg]; exact hs) A.zero).mono (by linarith)
  have lS : ‖(⟨inverseSqrt2, 0⟩ : ℂ)‖ ≤ 1 := by rw [norm_real]; exact invSqrt2_abs
  have lSn : ‖(⟨-inverseSqrt2, 0⟩ : ℂ)‖ ≤ 1 := by rw [norm_real, abs_neg]; exact invSqrt2_abs
  have hl : ∀ {a b : ℝ}, |a| ≤ 1 → |b| ≤ 1 → Near val (lit lib a b : Cx F) (lit exactLib a b : ℂ) (80 * ε) :=
    fun ha hb => (lit_near A ha hb).mono (by linarith)
  have hh : |(0.5 : ℝ)| ≤ 1 / 2 := by norm_num [abs_of_nonneg]
  have hh' : |(-0.5 : ℝ)| ≤ 1 / 2 := by rw [abs_neg]; exact hh
  have g1 : |(0.5 : ℝ)| ≤ 1 := by linarith
  have g2 : |(-0.5 : ℝ)| ≤ 1 := by linarith
  have l5 : ‖(lit exactLib 0.5 0.5 : ℂ)‖ ≤ 1 := norm_half_half _ _ hh hh
  have l6 : ‖(lit exactLib 0.5 (-0.5) : ℂ)‖ ≤ 1 := norm_half_half _ _ hh hh'
  have l7 : ‖(lit exactLib (-0.5) 0.5 : ℂ)‖ ≤ 1 := norm_half_half _ _ hh' hh
  have l8 : ‖(lit exactLib (-0.5) (-0.5) : ℂ)‖ ≤ 1 := norm_half_half _ _ hh' hh'
  obtain ⟨l9, l10⟩ := norm_invSqrt2_pair
  cases k with
  | X => exact close_x A he h hq
  | Y => exact close_y A he h4 h hq hI l1 hNI l2
  | Z => exact close_phase A he h4 h hq hM1 l3
  | H => exact close_dense1 A he h4 hL h hq ⟨hS, hS, hS, hSn⟩ ⟨lS, lS, lS, lSn⟩
  | S => exact close_phase A he h4 h hq hI l1
  | Sdag => exact close_phase A he h4 h hq hNI l2
  | T => exact close_phase A he h4 h hq (hl invSqrt2_abs invSqrt2_abs) l9
  | Tdag => exact close_phase A he h4 h hq (hl invSqrt2_abs (by rw [abs_neg]; exact invSqrt2_abs)) l10
  | SqrtX => exact close_dense1 A he h4 hL h hq ⟨hl g1 g1, hl g1 g2, hl g1 g2, hl g1 g1⟩ ⟨l5, l6, l6, l5⟩
  | SqrtXdag => exact close_dense1 A he h4 hL h hq ⟨hl g1 g2, hl g1 g1, hl g1 g1, hl g1 g2⟩ ⟨l6, l5, l5, l6⟩
  | SqrtY => exact close_dense1 A he h4 hL h hq ⟨hl g1 g1, hl g2 g2, hl g1 g1, hl g1 g1⟩ ⟨l5, l8, l5, l5⟩
  | SqrtYdag => exact close_dense1 A he h4 hL h hq ⟨hl g1 g2, hl g1 g2, hl g2 g1, hl g1 g2⟩ ⟨l6, l6, l7, l6⟩
  | P0 => exact close_dense1 A he h4 hL h hq ⟨hO, hZ, hZ, hZ⟩ ⟨by simp, by simp, by simp, by simp⟩
  | P1 => exact close_dense1 A he h4 hL h hq ⟨hZ, hZ, hZ, hO⟩ ⟨by simp, by simp, by simp, by simp⟩
  | RX a =>
    obtain ⟨ha, hεa⟩ := hk a (by simp [angles1])
    have c := cosHalf_near A ha hεa h4
    have s := sinHalf_near A ha hεa h4
    have n1 : Near val (⟨lib.cos (lib.half (lib.cast a)), 0⟩ : Cx F) ⟨Real.cos (a / 2), 0⟩ (80 * ε) := (Near.real c A.zero).mono (by linarith)
    have n2 : Near val (⟨0, -lib.sin (lib.half (lib.cast a))⟩ : Cx F) ⟨0, -Real.sin (a / 2)⟩ (80 * ε) :=
      (Near.imag (δ := 2 * ε) (by rw [A.neg, ← neg_sub', abs_neg]; exact s) A.zero).mono (by linarith)
    have m1 : ‖(⟨Real.cos (a / 2), 0⟩ : ℂ)‖ ≤ 1 := by rw [norm_real]; exact Real.abs_cos_le_one _
    have m2 : ‖(⟨0, -Real.sin (a / 2)⟩ : ℂ)‖ ≤ 1 := by rw [norm_imag, abs_neg]; exact Real.abs_sin_le_one _
    exact close_dense1 A he h4 hL h hq ⟨n1, n2, n2, n1⟩ ⟨m1, m2, m2, m1⟩
  | RY a =>
    obtain ⟨ha, hεa⟩ := hk a (by simp [angles1])
    have c := cosHalf_near A ha hεa h4
    have s := sinHalf_near A ha hεa h4
    have n1 : Near val (⟨lib.cos (lib.half (lib.cast a)), 0⟩ : Cx F) ⟨Real.cos (a / 2), 0⟩ (80 * ε) := (Near.real c A.zero).mono (by linarith)
    have n2 : Near val (⟨-lib.sin (lib.half (lib.cast a)), 0⟩ : Cx F) ⟨-Real.sin (a / 2), 0⟩ (80 * ε) :=
      (Near.real (δ := 2 * ε) (by rw [A.neg, ← neg_sub', abs_neg]; exact s) A.zero).mono (by linarith)
    have n3 : Near val (⟨lib.sin (lib.half (lib.cast a)), 0⟩ : Cx F) ⟨Real.sin (a / 2), 0⟩ (80 * ε) := (Near.real s A.zero).mono (by linarith)
    have m1 : ‖(⟨Real.cos (a / 2), 0⟩ : ℂ)‖ ≤ 1 := by rw [norm_real]; exact Real.abs_cos_le_one _
    have m2 : ‖(⟨-Real.sin (a / 2), 0⟩ : ℂ)‖ ≤ 1 := by rw [norm_real, abs_neg]; exact Real.abs_sin_le_one _
    have m3 : ‖(⟨Real.sin (a / 2), 0⟩ : ℂ)‖ ≤ 1 := by rw [norm_real]; exact Real.abs_sin_le_one _
    exact close_dense1 A he h4 hL h hq ⟨n1, n2, n3, n1⟩ ⟨m1, m2, m3, m1⟩
  | RZ a =>
    obtain ⟨ha, hεa⟩ := hk a (by simp [angles1])
    have c := cosHalf_near A ha hεa h4
    have s := sinHalf_near A ha hεa h4
    have s' : |val (-lib.sin (lib.half (lib.cast a))) - -Real.sin (a / 2)| ≤ 2 * ε := by rw [A.neg, ← neg_sub', abs_neg]; exact s
    have n1 : Near val (⟨lib.cos (lib.half (lib.cast a)), -lib.sin (lib.half (lib.cast a))⟩ : Cx F)
      ⟨Real.cos (a / 2), -Real.sin (a / 2)⟩ (80 * ε) := (Near.parts c s').mono (by linarith)
    have n2 : Near val (⟨lib.cos (lib.half (lib.cast a)), lib.sin (lib.half (lib.cast a))⟩ : Cx F)
      ⟨Real.cos (a / 2), Real.sin (a / 2)⟩ (80 * ε) := (Near.parts c s).mono (by linarith)
    have m1 : ‖(⟨Real.cos (a / 2), -Real.sin (a / 2)⟩ : ℂ)‖ ≤ 1 := by
      have := norm_cis' (-(a / 2)); rwa [Real.cos_neg, Real.sin_neg] at this
    exact close_diag A he h4 h hq n1 m1 n2 (norm_cis' _)
  | U1 a =>
    obtain ⟨ha, hεa⟩ := hk a (by simp [angles1])
    have e : (expC exactLib (⟨0, a⟩ : ℂ) : ℂ) = ⟨Real.cos a, Real.sin a⟩ := by
      apply Complex.ext <;> simp [expC, scaleC, exactLib]
    have := close_phase A he h4 h hq ((expC_near A ha hεa h4).mono (by linarith)) (norm_cis' a)
    rw [← e] at this
    exact this
  | U2 b c =>
    obtain ⟨ha, hεa⟩ := hk (Real.pi / 2) (by simp [angles1])
    obtain ⟨hb, hεb⟩ := hk b (by simp [angles1])
    obtain ⟨hc, hεc⟩ := hk c (by simp [angles1])
    obtain ⟨h1, h2⟩ := ibmqF_near A ha hb hc hεa hεb hεc h4
    exact close_dense1 A he h4 hL h hq h1 h2
  | U3 a b c =>
    obtain ⟨ha, hεa⟩ := hk a (by simp [angles1])
    obtain ⟨hb, hεb⟩ := hk b (by simp [angles1])
    obtain ⟨hc, hεc⟩ := hk c (by simp [angles1])
    obtain ⟨h1, h2⟩ := ibmqF_near A ha hb hc hεa hεb hεc h4
    exact close_dense1 A he h4 hL h hq h1 h2

/-- the launches of a valid covered gate in floating-point arithmetic stay close to its exact launches -/
theorem updateF_close (A : Accurate lib val u w η Ω) (hε : u + η + w ≤ ε) (h4 : ε ≤ 1 / 400) {g : UGate} (hv : Valid g)
    (hcoef : CoefsOK g) (hang : ∀ a ∈ anglesU g, |a| ≤ 32 ∧ (u + η) * (1 + |a|) + w ≤ ε) (hL : LanesOK L) (hn : n < 64)
    (hsize : B * 2 ^ n ≤ 2 ^ 64) (ht : ∀ q ∈ UGate.ts g, q < n) (hc : ∀ p ∈ UGate.cs g, p.1 < n) :
    ∃ (d : Device (Cx F)) (d' : Device ℂ), g.updateF lib L B n = .ok d ∧ g.updateF exactLib L B n = .ok d' ∧
      CloseTo (B * 2 ^ n) val ε η d d' := by
  have hu0 := A.u_nonneg
  have hη0 := A.eta_nonneg
  have hw0 := A.w_nonneg
  have he : u + η ≤ ε := by linarith
  have hck : OperandsOK g.operands → checkWithinBounds g.operands n = .ok () := by
    intro ho
    rw [checkWithinBounds_self ho hn]
    rintro x (hx | hx)
    · exact ht x hx
    · obtain ⟨b, hb⟩ := mem_controls.2 hx
      exact hc _ hb
  have upd : ∀ {R : Type} {o : Operands} (d : Device R), checkWithinBounds o n = .ok () →
      (checkWithinBounds o n >>= fun _ => (pure d : Res (Device R))) = .ok d := by
    intro R o d h; rw [h, ok_bind]; rfl
  cases g with
  | ident => exact ⟨_, _, rfl, rfl, closeTo_exact (by linarith) hη0 fun m => ⟨m, rfl, rfl⟩⟩
  | globalPhase phase o =>
    obtain ⟨ho, h0⟩ := hv
    have hmk := mkOperands_self ho
    have ctx := ctx_of hmk (hck ho) hsize
    have hm := ctx.masks
    rw [h0] at hm
    obtain ⟨ha, hεa⟩ := hang phase (by simp [anglesU])
    refine ⟨_, _, upd _ (hck ho), upd _ (hck ho), ?_⟩
    have e : (polarF exactLib 1 (exactLib.cast phase) : ℂ) = ⟨Real.cos phase, Real.sin phase⟩ := by
      apply Complex.ext <;> simp [polarF, exactLib]
    rw [e]
    exact close_zeroTarget A he h4 hL hm (by omega) ((polarF_near A ha hεa h4).mono (by linarith)) (norm_cis' _)
  | one k o =>
    obtain ⟨ho, q, hq⟩ := hv
    have hmk := mkOperands_self ho
    rw [hq] at hmk
    have ctx := ctx_of hmk (hck ho) hsize
    exact ⟨_, _, upd _ (hck ho), upd _ (hck ho), close_gate1 A hε h4 hL ctx.masks (isBit_of hmk) k hang⟩
  | swap o =>
    obtain ⟨ho, a, b, hab⟩ := hv
    have hmk := mkOperands_self ho
    rw [hab] at hmk
    have ctx := ctx_of hmk (hck ho) hsize
    refine ⟨_, _, upd _ (hck ho), upd _ (hck ho), close_swap A he hmk ?_ hsize⟩
    rintro q (h | h)
    · exact ctx.tlt q h
    · exact ctx.clt q h
  | ecr g =>
    obtain ⟨ho, a, b, hne, ha, hb, hgt⟩ := hv
    have hmk := mkOperands_self ho
    have ctx := ctx_of hmk (hck ho) hsize
    have hm := ctx.masks
    rw [hgt] at hm
    refine ⟨_, _, upd _ (hck ho), upd _ (hck ho), close_ecr A he h4 hm ha hb hne ?_ ?_ ?_ ?_ ?_ ?_⟩
    · exact (Near.real (cast_small A invSqrt2_abs) A.zero).mono (by linarith)
    · show ‖(⟨inverseSqrt2, 0⟩ : ℂ)‖ ≤ 1
      rw [norm_real]; exact invSqrt2_abs
    · exact cval_i A
    · show ‖(⟨0, 1⟩ : ℂ)‖ ≤ 1
      rw [norm_imag]; norm_num
    · exact (cval_ni A).trans (by apply Complex.ext <;> simp)
    · show ‖(⟨0, -1⟩ : ℂ)‖ ≤ 1
      rw [norm_imag]; norm_num
  | perm g =>
    obtain ⟨hk, hg⟩ := hv
    obtain ⟨hp, -, hs, hw, hmk⟩ := permCtor_spec hk hg
    have ho : OperandsOK g.o := operandsOK_of hmk
    obtain ⟨d, hd⟩ : ∃ d, permUpdate B n g = .ok d := ⟨_, upd_ok (hck ho) _⟩
    have hkn := (perm_update hk hg hsize hd (fun _ => 0)).1
    refine ⟨_, _, upd _ (hck ho), upd _ (hck ho), closeTo_exact (by linarith) hη0 fun m =>
      ⟨_, permKernel_spec hsize (by omega) hkn hs m, ?_⟩⟩
    have := permKernel_spec hsize (by omega) hkn hs (fun j => ⟪m j⟫)
    simp only [apply_ite (cval val)]
    exact this
  | dense g =>
    obtain ⟨ho, hr, hcol⟩ := hv
    obtain ⟨h4', hent⟩ := hcoef
    have hmk := mkOperands_self ho
    have ctx := ctx_of hmk (hck ho) hsize
    have hlen := length_maskToVector g.o.t
    have hcast : ∀ i j, i < g.mat.rows → j < g.mat.cols → Near val (castC lib (g.mat.entry i j) : Cx F) (g.mat.entry i j) (2 * ε) :=
      fun i j hi hj => (castC_near A (hent i j hi hj)).mono (by linarith)
    have hcast' : ∀ i j, i < g.mat.rows → j < g.mat.cols → Near val (castC lib (g.mat.entry i j) : Cx F) (g.mat.entry i j) (80 * ε) :=
      fun i j hi hj => (hcast i j hi hj).mono (by linarith)
    show ∃ (d : Device (Cx F)) (d' : Device ℂ), denseUpdateF lib L B n g.mat g.o = .ok d ∧ denseUpdateF exactLib L B n g.mat g.o = .ok d' ∧ _
    unfold denseUpdateF
    rw [show checkWithinBounds g.o n = _ from hck ho, ok_bind, ok_bind]
    simp only [castC_exact]
    have hcases : (maskToVector g.o.t).length = 0 ∨ (maskToVector g.o.t).length = 1 ∨ (maskToVector g.o.t).length = 2 := by
      have : (maskToVector g.o.t).length < 3 := by
        by_contra hh
        have := Nat.pow_le_pow_right (n := 2) (by omega) (show 3 ≤ (maskToVector g.o.t).length by omega)
        omega
      omega
    rcases hcases with hl | hl | hl <;> rw [hl] at hr hcol
    · simp only [hr, hcol]
      refine ⟨_, _, rfl, rfl, ?_⟩
      have hnil := List.length_eq_zero_iff.1 hl
      have ht0 : g.o.t = 0 := by
        apply U64.ext; intro i _
        have : i ∉ maskToVector g.o.t := by rw [hnil]; simp
        rw [mem_maskToVector] at this
        simpa using this
      exact close_zeroTarget A he h4 hL (ht0 ▸ ctx.masks) (by omega) (hcast' 0 0 (by omega) (by omega)) (hent 0 0 (by omega) (by omega))
    · simp only [hr, hcol]
      obtain ⟨q, hq⟩ := List.length_eq_one_iff.1 hl
      rw [hq] at hmk
      refine ⟨_, _, rfl, rfl, close_dense1 A he h4 hL ctx.masks (isBit_of hmk) ?_ ?_⟩
      · exact ⟨hcast' _ _ (by omega) (by omega), hcast' _ _ (by omega) (by omega), hcast' _ _ (by omega) (by omega),
          hcast' _ _ (by omega) (by omega)⟩
      · exact ⟨hent _ _ (by omega) (by omega), hent _ _ (by omega) (by omega), hent _ _ (by omega) (by omega),
          hent _ _ (by omega) (by omega)⟩
    · simp only [hr, hcol]
      obtain ⟨q0, q1, hq⟩ := List.length_eq_two.1 hl
      have hlt : q0 < q1 := by
        have := maskToVector_sorted g.o.t
        rw [hq] at this
        simpa using this
      have h64 : q1 < 64 := by
        have := ctx.tlt q1 (by rw [hq]; simp)
        omega
      refine ⟨_, _, rfl, rfl, close_dense2 A he h4 ctx.masks hlt h64 ?_ ?_ ?_⟩
      · intro i
        have := mem_maskToVector (m := g.o.t) (i := i)
        rw [hq] at this
        simp only [List.mem_cons, List.not_mem_nil, or_false] at this
        rw [Bool.eq_iff_iff]
        simp [this]
      · intro i j; exact hcast _ _ (by have := i.2; omega) (by have := j.2; omega)
      · intro i j; exact hent _ _ (by have := i.2; omega) (by have := j.2; omega)
  | sparse g => exact hcoef.elim
  | pauli g =>
    obtain ⟨ho, hgt⟩ := hv
    have hmk := mkOperands_self ho
    rw [hgt] at hmk
    have hf := pauli_flipOK (B := B) (n := n) hmk (by
      rintro q (hq | hq)
      · exact ht q (by rw [show UGate.ts (.pauli g) = maskToVector g.o.t from rfl, hgt]; exact hq)
      · obtain ⟨b, hb⟩ := mem_controls.2 hq
        exact hc _ hb) hsize
    refine ⟨_, _, rfl, rfl, ?_⟩
    rw [castC_exact]
    exact close_pauli A he h4 hf ((castC_near A hcoef).mono (by linarith)) hcoef
  | pauliRot g a =>
    obtain ⟨ho, hgt⟩ := hv
    have hmk := mkOperands_self ho
    rw [hgt] at hmk
    have hf := pauli_flipOK (B := B) (n := n) hmk (by
      rintro q (hq | hq)
      · exact ht q (by rw [show UGate.ts (.pauliRot g a) = maskToVector g.o.t from rfl, hgt]; exact hq)
      · obtain ⟨b, hb⟩ := mem_controls.2 hq
        exact hc _ hb) hsize
    obtain ⟨ha, hεa⟩ := hang a (by simp [anglesU])
    obtain ⟨c1, c2⟩ := cast_angle A ha hεa h4
    exact ⟨_, _, rfl, rfl, close_pauliRot A ha hcoef.2 hcoef.1 hεa h4 c1 c2 hf⟩

theorem mkPauli_op {p : PauliOp} {cs vs : List Nat} {g : PauliGate} (h : mkPauli p cs vs = .ok g) : g.p = p := by
  obtain ⟨_, _, h⟩ := bind_ok h
  obtain ⟨_, _, h⟩ := bind_ok h
  obtain ⟨_, _, h⟩ := bind_ok h
  obtain ⟨_, _, h⟩ := bind_ok h
  cases h
  rfl

/-- the bounds of the coefficients of a gate -/
def CoefsAll : UGate → Prop
  | .dense g => ∀ i j, i < g.mat.rows → j < g.mat.cols → ‖g.mat.entry i j‖ ≤ 1
  | .sparse g => ∀ x ∈ g.mat.vals, ‖x‖ ≤ 1
  | g => CoefsOK g

/-- how many terms are summed for an amplitude -/
def termsU : UGate → ℝ
  | .dense g => if g.mat.rows ≤ 4 then 1 else g.mat.rows
  | .sparse g => 2 ^ (maskToVector g.o.t).length
  | _ => 1

theorem updateF_close_all (A : Accurate lib val u w η Ω) (hε : u + η + w ≤ ε) (h4 : ε ≤ 1 / 400) {g : UGate} (hv : Valid g)
    (hcoef : CoefsAll g) (hang : ∀ a ∈ anglesU g, |a| ≤ 32 ∧ (u + η) * (1 + |a|) + w ≤ ε) (hL : LanesOK L) (hn : n < 64)
    (hsize : B * 2 ^ n ≤ 2 ^ 64) (ht : ∀ q ∈ UGate.ts g, q < n) (hc : ∀ p ∈ UGate.cs g, p.1 < n)
    (hiε : termsU g * ε ≤ 1 / 400) (hΩ : 16 * termsU g ≤ Ω) :
    ∃ (d : Device (Cx F)) (d' : Device ℂ), g.updateF lib L B n = .ok d ∧ g.updateF exactLib L B n = .ok d' ∧
      CloseTo (B * 2 ^ n) val (termsU g ^ 2 * ε) (termsU g ^ 2 * η) d d' := by
  have hu0 := A.u_nonneg
  have hη0 := A.eta_nonneg
  have hw0 := A.w_nonneg
  have small : CoefsOK g → termsU g = 1 → ∃ (d : Device (Cx F)) (d' : Device ℂ), g.updateF lib L B n = .ok d ∧
      g.updateF exactLib L B n = .ok d' ∧ CloseTo (B * 2 ^ n) val (termsU g ^ 2 * ε) (termsU g ^ 2 * η) d d' := by
    intro h1 h2
    rw [h2, one_pow, one_mul, one_mul]
    exact updateF_close A hε h4 hv h1 hang hL hn hsize ht hc
  have hck : OperandsOK g.operands → checkWithinBounds g.operands n = .ok () := by
    intro ho
    rw [checkWithinBounds_self ho hn]
    rintro x (hx | hx)
    · exact ht x hx
    · obtain ⟨b, hb⟩ := mem_controls.2 hx
      exact hc _ hb
  cases g with
  | dense g =>
    by_cases hr4 : g.mat.rows ≤ 4
    · exact small ⟨hr4, hcoef⟩ (by simp [termsU, hr4])
    · obtain ⟨ho, hr, hcol⟩ := hv
      have hmk := mkOperands_self ho
      have ctx := ctx_of hmk (hck ho) hsize
      have hlen := length_maskToVector g.o.t
      have e : termsU (.dense g) = 2 ^ (maskToVector g.o.t).length := by
        simp only [termsU, if_neg hr4]; rw [hr]; push_cast; rfl
      rw [e] at hiε hΩ ⊢
      show ∃ (d : Device (Cx F)) (d' : Device ℂ), denseUpdateF lib L B n g.mat g.o = .ok d ∧ denseUpdateF exactLib L B n g.mat g.o = .ok d' ∧ _
      unfold denseUpdateF
      rw [show checkWithinBounds g.o n = _ from hck ho, ok_bind, ok_bind]
      simp only [castC_exact]
      rw [if_neg (by omega), if_neg (by omega), if_neg (by omega), if_pos (by rw [← hlen]; exact ⟨hr.ge, hcol.ge⟩),
        if_neg (by omega), if_neg (by omega), if_neg (by omega), if_pos (by rw [← hlen]; exact ⟨hr.ge, hcol.ge⟩)]
      refine ⟨_, _, rfl, rfl, ?_⟩
      unfold multiDense
      have hs : sortQ (maskToVector g.o.t) = maskToVector g.o.t := sortQ_maskToVector _
      have hmo := ctx.maskOf
      have htl := ctx.tlt
      rw [hs] at hmo
      have hent : ∀ i j, i < 2 ^ (maskToVector g.o.t).length → j < 2 ^ (maskToVector g.o.t).length → ‖g.mat.entry i j‖ ≤ 1 := by
        intro i j hi hj
        exact hcoef i j (by rw [hr]; exact hi) (by rw [hcol]; exact hj)
      have hp : 2 ^ popcount g.o.t = 2 ^ (maskToVector g.o.t).length := by rw [hlen]
      generalize 2 ^ popcount g.o.t = N at hp
      subst hp
      have := closeTo_rows (B := B) (n := n) (lib := lib) A (by linarith) ctx.masks hn hmo htl hiε hΩ
        (fun r => (List.range (2 ^ (maskToVector g.o.t).length)).map fun s => (g.mat.entry r.val s, s)) (by
          intro r p hp
          rw [List.mem_map] at hp
          obtain ⟨s, hs, rfl⟩ := hp
          simpa using hs) (by
          intro r
          rw [List.map_map, show (Prod.snd ∘ fun s => (g.mat.entry r.val s, s)) = id from rfl, List.map_id]
          exact List.nodup_range) (by
          intro r p hp
          rw [List.mem_map] at hp
          obtain ⟨s, hs, rfl⟩ := hp
          exact hent _ _ r.isLt (by simpa using hs))
      simp only [List.map_map] at this
      exact this
  | sparse g =>
    obtain ⟨ho, m, hm, hgm⟩ := hv
    have hmk := mkOperands_self ho
    have ctx := ctx_of hmk (hck ho) hsize
    show ∃ (d : Device (Cx F)) (d' : Device ℂ), (checkWithinBounds g.o n >>= fun _ => sparseKernel n g.o.t g.o.c g.o.v
      { g.mat with vals := g.mat.vals.map (castC lib) } (B * 2 ^ n)) = .ok d ∧ (checkWithinBounds g.o n >>= fun _ => sparseKernel n g.o.t g.o.c g.o.v
      { g.mat with vals := g.mat.vals.map (castC exactLib) } (B * 2 ^ n)) = .ok d' ∧ _
    have hid : g.mat.vals.map (castC (R := ℂ) exactLib) = g.mat.vals := by
      rw [show (castC exactLib : ℂ → ℂ) = id from funext castC_exact, List.map_id]
    have hcoef' : ∀ x ∈ g.mat.vals, ‖x‖ ≤ 1 := hcoef
    change 2 ^ (maskToVector g.o.t).length * ε ≤ 1 / 400 at hiε
    change 16 * 2 ^ (maskToVector g.o.t).length ≤ Ω at hΩ
    rw [show checkWithinBounds g.o n = _ from hck ho, ok_bind, ok_bind, hid]
    change ∃ (d : Device (Cx F)) (d' : Device ℂ), _ ∧ sparseKernel n g.o.t g.o.c g.o.v g.mat (B * 2 ^ n) = .ok d' ∧
      CloseTo (B * 2 ^ n) val ((2 ^ (maskToVector g.o.t).length) ^ 2 * ε) ((2 ^ (maskToVector g.o.t).length) ^ 2 * η) d d'
    rw [hgm] at hcoef' ⊢
    rw [csr_convert]
    unfold sparseKernel
    rw [csr_rows, ok_bind, csr_rows, ok_bind]
    refine ⟨_, _, rfl, rfl, ?_⟩
    have hs : sortQ (maskToVector g.o.t) = maskToVector g.o.t := sortQ_maskToVector _
    have hmo := ctx.maskOf
    have htl := ctx.tlt
    rw [hs] at hmo
    have hconv : ((SMat.convert (castC lib : ℂ → Cx F) m).stored.map fun row => row.map fun p => (p.2, p.1)) =
        (m.stored.map fun row => row.map fun p => (p.2, p.1)).map fun row => row.map fun p => ((castC lib p.1 : Cx F), p.2) := by
      simp only [SMat.convert, List.map_map]
      apply List.map_congr_left
      intro row _
      simp only [Function.comp_apply, List.map_map]
      rfl
    rw [hconv]
    have hN : (m.stored.map fun row => row.map fun p => (p.2, p.1)).length = 2 ^ (maskToVector g.o.t).length := by
      rw [List.length_map, hm.rows]
    have hrow : ∀ row ∈ (m.stored.map fun row => row.map fun p => (p.2, p.1)),
        (∀ p ∈ row, p.2 < 2 ^ (maskToVector g.o.t).length) ∧ (row.map Prod.snd).Nodup ∧ ∀ p ∈ row, ‖p.1‖ ≤ 1 := by
      intro row hrow
      rw [List.mem_map] at hrow
      obtain ⟨r, hr, rfl⟩ := hrow
      obtain ⟨i1, i2⟩ := hm.inner r hr
      refine ⟨?_, by rw [List.map_map]; exact i2, ?_⟩
      · intro p hp
        rw [List.mem_map] at hp
        obtain ⟨q, hq, rfl⟩ := hp
        exact i1 q hq
      · intro p hp
        rw [List.mem_map] at hp
        obtain ⟨q, hq, rfl⟩ := hp
        apply hcoef'
        simp only [Csr.ofSMat]
        rw [List.mem_map]
        exact ⟨q, List.mem_flatten.2 ⟨r, hr, hq⟩, rfl⟩
    generalize (m.stored.map fun row => row.map fun p => (p.2, p.1)) = rs at hN hrow
    have := closeTo_rows (B := B) (n := n) (lib := lib) A (by linarith) ctx.masks hn hmo htl hiε hΩ
      (fun r => rs[r.val]'(by rw [hN]; exact r.isLt)) (fun r => (hrow _ (List.getElem_mem _)).1)
      (fun r => (hrow _ (List.getElem_mem _)).2.1) (fun r => (hrow _ (List.getElem_mem _)).2.2)
    have e1 : ∀ (N M : Nat) (h : N = M) (f : Fin N → List (Cx F × Nat)), (Device.outOfPlace (B * 2 ^ n) _ N (outOfPlaceInit g.o.c g.o.v (B * 2 ^ n))
        (outOfPlaceUpdate n g.o.t g.o.c g.o.v N f (B * 2 ^ n))) = .outOfPlace (B * 2 ^ n) _ M (outOfPlaceInit g.o.c g.o.v (B * 2 ^ n))
        (outOfPlaceUpdate n g.o.t g.o.c g.o.v M (fun r => f (r.cast h.symm)) (B * 2 ^ n)) := by
      intro N M h f; subst h; rfl
    have e2 : ∀ (N M : Nat) (h : N = M) (f : Fin N → List (ℂ × Nat)), (Device.outOfPlace (B * 2 ^ n) _ N (outOfPlaceInit g.o.c g.o.v (B * 2 ^ n))
        (outOfPlaceUpdate n g.o.t g.o.c g.o.v N f (B * 2 ^ n))) = .outOfPlace (B * 2 ^ n) _ M (outOfPlaceInit g.o.c g.o.v (B * 2 ^ n))
        (outOfPlaceUpdate n g.o.t g.o.c g.o.v M (fun r => f (r.cast h.symm)) (B * 2 ^ n)) := by
      intro N M h f; subst h; rfl
    rw [e1 _ _ ((List.length_map _).trans hN), e2 _ _ hN]
    simp only [List.getElem_map, Fin.val_cast]
    exact this
  | _ => exact small hcoef rfl

theorem stored_entry {m : SMat ℂ} {k : Nat} (hm : SMat.OK m k) {r : Nat} (hr : r < m.stored.length) {p : Nat × ℂ} (hp : p ∈ m.stored[r]) :
    m.toDense.entry r p.1 = p.2 := by
  simp only [SMat.toDense, List.getElem?_eq_getElem hr]
  have hnd := (hm.inner _ (List.getElem_mem hr)).2
  generalize m.stored[r] = l at hp hnd
  have : l.find? (fun q => decide (q.1 = p.1)) = some p := by
    cases hf : l.find? (fun q => decide (q.1 = p.1)) with
    | none =>
      rw [List.find?_eq_none] at hf
      exact absurd (by simp) (hf p hp)
    | some q =>
      have h1 := List.find?_some hf
      have h2 := List.mem_of_find?_eq_some hf
      rw [List.inj_on_of_nodup_map hnd h2 hp (by simpa using h1)]
  rw [this]

/-- what the factories make of a covered description -/
theorem build_coefs {d : GateDesc} {g : UGate} (hd : Covered d) (hok : DescOK d) (h : d.build = .ok g) : CoefsAll g ∧ anglesU g = angles d ∧ termsU g = terms d := by
  cases d with
  | ident => cases h; exact ⟨trivial, rfl, rfl⟩
  | globalPhase phase cs vs => obtain ⟨o, ho, h⟩ := bind_ok h; cases h; exact ⟨trivial, rfl, rfl⟩
  | one k q cs vs => obtain ⟨o, ho, h⟩ := bind_ok h; cases h; exact ⟨trivial, rfl, rfl⟩
  | swap a b cs vs => obtain ⟨o, ho, h⟩ := bind_ok h; cases h; exact ⟨trivial, rfl, rfl⟩
  | ecr c t cs vs => obtain ⟨o, ho, h⟩ := bind_ok h; cases h; exact ⟨trivial, rfl, rfl⟩
  | perm dst => obtain ⟨o, ho, h⟩ := bind_ok h; cases h; exact ⟨trivial, rfl, rfl⟩
  | dense ts M cs vs u =>
    obtain ⟨g, hg, h⟩ := bind_ok h
    cases h
    obtain ⟨ho, hr, hc, hr', hc', -, he⟩ := mkDense_ok hg
    refine ⟨?_, rfl, ?_⟩
    · intro i j hi hj
      rw [hr'] at hi
      rw [hc'] at hj
      rw [he i j hi hj]
      exact hd _ _ (by rw [hr]; exact getBits_lt _ _) (by rw [hc]; exact getBits_lt _ _)
    · simp only [termsU, terms, hr']
      have : 2 ^ ts.length ≤ 4 ↔ ts.length ≤ 2 := by
        rw [show 4 = 2 ^ 2 from rfl]; exact Nat.pow_le_pow_iff_right (by norm_num)
      simp only [this]
      push_cast
      rfl
  | sparse ts M cs vs =>
    obtain ⟨g, hg, h⟩ := bind_ok h
    cases h
    obtain ⟨ho, m, hm, hgm, he⟩ := mkSparse_ok hok hg
    refine ⟨?_, rfl, ?_⟩
    · intro x hx
      rw [hgm] at hx
      simp only [Csr.ofSMat, List.mem_map] at hx
      obtain ⟨p, hp, rfl⟩ := hx
      obtain ⟨row, hrow, hp⟩ := List.mem_flatten.1 hp
      obtain ⟨r, hr, rfl⟩ := List.getElem_of_mem hrow
      rw [← stored_entry hm hr hp, he _ _ (by rw [← hm.rows]; exact hr) ((hm.inner _ (List.getElem_mem hr)).1 p hp)]
      exact hd _ _
    · show (2 : ℝ) ^ (maskToVector g.o.t).length = 2 ^ ts.length
      have hl : (maskToVector g.o.t).length = ts.length := by
        rw [target_list ho]; exact length_sortQ ts
      rw [hl]
  | pauli p cs vs =>
    obtain ⟨g, hg, h⟩ := bind_ok h
    cases h
    refine ⟨?_, rfl, rfl⟩
    have e : g.p = p := mkPauli_op hg
    show ‖g.p.coef‖ ≤ 1
    rw [e]; exact hd
  | pauliRot p a cs vs =>
    obtain ⟨g, hg, h⟩ := bind_ok h
    cases h
    refine ⟨?_, rfl, rfl⟩
    have e : g.p = p := mkPauli_op hg
    show g.p.coef.im = 0 ∧ |g.p.coef.re| ≤ 1
    rw [e]; exact hd

/-- one update in floating-point arithmetic: it has exactly one outcome, close to the exact operator -/
theorem gate_close (A : Accurate lib val u w η Ω) (hε : u + η + w ≤ ε) (h4 : ε ≤ 1 / 400) {d : GateDesc} {g : UGate}
    (hok : DescOK d) (hcov : Covered d) (h : d.build = .ok g) (hang : ∀ a ∈ angles d, |a| ≤ 32 ∧ (u + η) * (1 + |a|) + w ≤ ε) (hL : LanesOK L)
    (hn : n < 64) (hsize : B * 2 ^ n ≤ 2 ^ 64) (hq : ∀ q ∈ qubitsOf d, q < n)
    (hiε : terms d * ε ≤ 1 / 400) (hΩ : 16 * terms d ≤ Ω) :
    ∃ dev : Device (Cx F), g.updateF lib L B n = .ok dev ∧ ∀ m : U64 → Cx F, (∀ j, InState (B * 2 ^ n) j → ‖⟪m j⟫‖ ≤ 4) →
      ∃ m', DRuns (B * 2 ^ n) dev m m' ∧
        √(normSq (B * 2 ^ n) (fun j => ⟪m' j⟫ - operatorOf d (fun j => ⟪m j⟫) j)) ≤
          256 * terms d ^ 2 * (ε * √(normSq (B * 2 ^ n) (fun j => ⟪m j⟫)) + η * √((B * 2 ^ n : Nat) : ℝ)) := by
  obtain ⟨hv, ho, hs⟩ := build_valid hok h
  obtain ⟨b1, b2⟩ := build_bounds hs hq
  obtain ⟨c1, c2, c3⟩ := build_coefs hcov hok h
  obtain ⟨dev, dev', e1, e2, hclose⟩ := updateF_close_all (L := L) (B := B) (n := n) A hε h4 hv c1 (by rw [c2]; exact hang) hL hn hsize b1 b2
    (by rw [c3]; exact hiε) (by rw [c3]; exact hΩ)
  refine ⟨dev, e1, fun m hm => ?_⟩
  obtain ⟨m', m'', r1, r2, hb⟩ := hclose m hm
  refine ⟨m', r1, ?_⟩
  obtain ⟨dv, hdv, hrun⟩ := update_valid hv hL hn hsize b1 b2
  rw [updateF_exact, hdv] at e2
  injection e2 with e2
  subst e2
  have e3 : m'' = _ := DRuns.unique r2 (hrun _)
  have e4 : normSq (B * 2 ^ n) (fun j => ⟪m' j⟫ - operatorOf d (fun j => ⟪m j⟫) j) = normSq (B * 2 ^ n) (fun j => ⟪m' j⟫ - m'' j) := by
    unfold normSq
    refine Finset.sum_congr rfl fun j hj => ?_
    rw [mem_indices hsize] at hj
    have : m'' j = operatorOf d (fun j => ⟪m j⟫) j := by
      rw [e3, ← ho]
      unfold onState
      exact if_pos hj
    simp only [this]
  rw [e4]
  rw [c3] at hb
  linarith

end

end Verif.Proofs
