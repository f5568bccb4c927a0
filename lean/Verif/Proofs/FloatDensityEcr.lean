import Verif.Proofs.FloatDensityKernels

/-! # Rounding errors of the global phase, swap and ECR kernels on density matrices -/

namespace Verif.Proofs
open Verif Verif.Spec Verif.Model
open scoped ComplexConjugate
attribute [-simp] BitVec.getLsbD_eq_getElem

section
variable {F : Type} [_root_.Zero F] [One F] [Add F] [Sub F] [Mul F] [Neg F] {lib : FloatLib F} {val : F → ℝ} {u w η Ω ε δ : ℝ}
  {n q : Nat} {t c v pt pc : U64} {cs : List (Nat × Bool)} {a b : Nat}

local notation "⟪" x "⟫" => cval val x

omit [_root_.Zero F] [One F] [Add F] [Sub F] [Mul F] [Neg F] in
theorem close_nothing (hε : 0 ≤ ε) (hη : 0 ≤ η) {G : (U64 → ℂ) → U64 → ℂ} (hG : ∀ M, onMatrix (2 ^ n) G M = M) : MCloseTo n val ε η [] G := by
  intro M _
  refine ⟨M, rfl, ?_⟩
  rw [hG]
  have h0 : frob (2 ^ n) ((fun p => ⟪M p⟫) - fun p => ⟪M p⟫) = 0 := by
    rw [sub_self]
    unfold frob
    simp
  have e : frob (2 ^ n) (fun p => ⟪M p⟫ - ⟪M p⟫) = 0 := h0
  have := frob_nonneg (2 ^ n) (fun p => ⟪M p⟫)
  first
    | (rw [h0]; positivity)
    | (rw [e]; positivity)

theorem close_dmGlobalPhase (A : DMRange lib val u w η Ω ε n) (h : MasksOK 1 n 0 c v) (hcs : ∀ j : U64, j &&& c = v ↔ CtrlOK cs j)
    {angle : ℝ} (ha : |angle| ≤ 32) (hεa : (u + η) * (1 + |angle|) + w ≤ ε) (U : Nat → Nat → ℂ) (hU : U 0 0 = cis angle)
    (hcon : ∀ ψ, normSq (2 ^ n) (applyMat [] U cs ψ) ≤ normSq (2 ^ n) ψ) :
    MCloseTo n val ε η (dmGlobalPhaseF lib c v angle (2 ^ n) : List (MLaunch (Cx F))) (applyMat [] U cs) := by
  obtain ⟨hu0, hη0, hε0, he, h4, hu, hη, hs⟩ := A.facts
  have Acc := A.acc
  unfold dmGlobalPhaseF
  split
  · next hc =>
    refine close_nothing hε0 hη0 fun M => ?_
    have := dmGlobalPhase_spec h A.qubits hcs angle U hU M
    unfold dmGlobalPhase at this
    rw [if_pos hc] at this
    exact this
  · dsimp only
    have hx : Near val (polarF lib 1 (lib.cast angle) : Cx F) (cis angle) (80 * ε) := by
      rw [cis_eq]
      exact (polarF_near Acc ha hεa (by linarith)).mono (by linarith)
    have hX : ‖cis angle‖ ≤ 1 := by rw [cis_eq]; exact norm_cis' angle
    exact two_pass_close1 A.qubits hε0 hη0 hs (fun m => ⟨_, zeroTargetScalar_any h _ m⟩) (fun m => ⟨_, zeroTargetScalar_any h _ m⟩)
      (close_zeroTarget Acc he (by linarith) (L := 0) (Or.inl rfl) h (by have := A.qubits; omega) hx hX)
      (close_zeroTarget Acc he (by linarith) (L := 0) (Or.inl rfl) h (by have := A.qubits; omega) (hx.conj Acc) (norm_conj_le hX))
      (fun m => zeroTargetScalar_spec h cs hcs _ U hU m)
      (fun m => zeroTargetScalar_spec h cs hcs _ (fun r s => conj (U r s)) (by simp [hU]) m) hcon (fun _ _ => rfl) (fun _ _ => rfl)

theorem close_dmSwap (A : DMRange lib val u w η Ω ε n) {cl vl : List Nat} {o : Operands} (hm : mkOperands [a, b] cl vl = .ok o)
    (hb : ∀ q, q ∈ [a, b] ∨ q ∈ cl → q < n) {q0 q1 : Nat} (h : MasksOK 1 n o.t o.c o.v) (hlt : q0 < q1) (h1 : q1 < n)
    (ht : ∀ i, o.t.getLsbD i = (decide (i = q0) || decide (i = q1))) (hcs : ∀ j : U64, j &&& o.c = o.v ↔ CtrlOK cs j)
    (U : Nat → Nat → ℂ) (hU : ∀ r s, r < 4 → s < 4 → U r s = if r % 2 = s / 2 ∧ r / 2 = s % 2 then 1 else 0)
    (hcon : ∀ ψ, normSq (2 ^ n) (applyMat [q0, q1] U cs ψ) ≤ normSq (2 ^ n) ψ) :
    MCloseTo n val ε η (dmSwapF o.t o.c o.v (2 ^ n) : List (MLaunch (Cx F))) (applyMat [q0, q1] U cs) := by
  obtain ⟨hu0, hη0, hε0, he, h4, hu, hη, hs⟩ := A.facts
  have hn := A.qubits
  have e1 := fun m => swapGate_spec h hlt (by omega) ht cs hcs U hU m
  have e2 := fun m => swapGate_spec h hlt (by omega) ht cs hcs (fun r s => conj (U r s)) (by
      intro r s hr hs; rw [hU r s hr hs]; split <;> simp) m
  have e3 : CloseTo (1 * 2 ^ n) val ε η _ _ := close_swap A.acc he hm hb h.size
  have e4 : ∀ m : U64 → Cx F, ∃ m', Runs (InState (1 * 2 ^ n)) (swapGate o.t o.c o.v (1 * 2 ^ n)) m m' := fun m => ⟨_, swapGate_any hm hb h.size m⟩
  unfold swapGate at e1 e2 e3 e4
  dsimp only at e1 e2 e3 e4
  unfold dmSwapF
  dsimp only
  exact two_pass_close1 hn hε0 hη0 hs e4 e4 e3 e3 e1 e2 hcon (fun _ _ => rfl) (fun _ _ => rfl)

/-! ## Sums of products -/

/-- accumulating products with nearby factors -/
theorem acc_fold (A : Accurate lib val u w η Ω) (hu : u ≤ 1 / 16384) (hη : η ≤ 1 / 16384) (hd : δ ≤ 1 / 64) :
    ∀ (l : List (Cx F × ℂ × Cx F)) (k : Nat) (S : Cx F) (s : ℂ) (T : ℝ),
      (∀ p ∈ l, Near val p.1 p.2.1 δ ∧ ‖p.2.1‖ ≤ 1 ∧ ‖⟪p.2.2⟫‖ ≤ 4) → k + l.length ≤ 16 → ‖s‖ ≤ T → 0 ≤ δ →
      T + (l.map fun p => ‖⟪p.2.2⟫‖).sum ≤ 40 → ‖⟪S⟫ - s‖ ≤ (δ + (7 + 3 * k) * u) * T + 6 * k * η →
      ‖⟪l.foldl (fun S p => S + p.1 * p.2.2) S⟫ - l.foldl (fun s p => s + p.2.1 * ⟪p.2.2⟫) s‖ ≤
        (δ + (7 + 3 * (k + l.length : Nat)) * u) * (T + (l.map fun p => ‖⟪p.2.2⟫‖).sum) + 6 * (k + l.length : Nat) * η
  | [], k, S, s, T, _, _, _, _, _, h => by simpa using h
  | (e, E, a) :: l, k, S, s, T, hl, hk, hT, hδ, hr, h => by
    have hu0 := A.u_nonneg
    have hη0 := A.eta_nonneg
    obtain ⟨h1, h2, h3⟩ := hl (e, E, a) (List.mem_cons_self ..)
    rw [List.map_cons, List.sum_cons] at hr ⊢
    simp only at h1 h2 h3 hr ⊢
    have hs0 : 0 ≤ (l.map fun p => ‖⟪p.2.2⟫‖).sum := List.sum_nonneg (by
      simp only [List.mem_map]
      rintro _ ⟨p, _, rfl⟩
      exact norm_nonneg _)
    have hk' : k + 1 + l.length ≤ 16 := by simp at hk; omega
    have hkr : (k : ℝ) ≤ 15 := by exact_mod_cast (show k ≤ 15 by omega)
    have hk0 : (0 : ℝ) ≤ k := Nat.cast_nonneg _
    have hT0 : 0 ≤ T := le_trans (norm_nonneg _) hT
    have ha0 := norm_nonneg ⟪a⟫
    have hp := coef_mul A (by linarith) (by linarith) h1 h2 (by linarith) (a := a) (by linarith)
    have hn : ‖E * ⟪a⟫‖ ≤ ‖⟪a⟫‖ := by rw [norm_mul]; exact mul_le_of_le_one_left ha0 h2
    -- sizes
    have hku : (7 + 3 * (k : ℝ)) * u ≤ 1 / 64 := by nlinarith
    have hkη : 6 * (k : ℝ) * η ≤ 1 / 64 := by nlinarith
    have b1 : ‖⟪S⟫‖ ≤ T + 2 := by
      have : ‖⟪S⟫‖ ≤ ‖s‖ + ‖⟪S⟫ - s‖ := by
        have := norm_add_le s (⟪S⟫ - s); rwa [add_sub_cancel] at this
      have : (δ + (7 + 3 * (k : ℝ)) * u) * T ≤ 1 / 32 * T := mul_le_mul_of_nonneg_right (by linarith) hT0
      linarith
    have b2 : ‖⟪e * a⟫‖ ≤ ‖⟪a⟫‖ + 1 := by
      have : ‖⟪e * a⟫‖ ≤ ‖E * ⟪a⟫‖ + ‖⟪e * a⟫ - E * ⟪a⟫‖ := by
        have := norm_add_le (E * ⟪a⟫) (⟪e * a⟫ - E * ⟪a⟫); rwa [add_sub_cancel] at this
      have : (δ + 7 * u) * ‖⟪a⟫‖ ≤ 1 / 32 * ‖⟪a⟫‖ := mul_le_mul_of_nonneg_right (by linarith) ha0
      linarith
    have hadd := add_err A S (e * a) (by linarith) (by linarith)
    have hstep : ‖⟪S + e * a⟫ - (s + E * ⟪a⟫)‖ ≤ (δ + (7 + 3 * ((k + 1 : Nat) : ℝ)) * u) * (T + ‖⟪a⟫‖) + 6 * ((k + 1 : Nat) : ℝ) * η := by
      set Er := (δ + (7 + 3 * (k : ℝ)) * u) * (T + ‖⟪a⟫‖) + (6 * k + 5) * η with hEr
      have hd1 : ‖(⟪S⟫ + ⟪e * a⟫) - (s + E * ⟪a⟫)‖ ≤ Er := by
        have e1 : (⟪S⟫ + ⟪e * a⟫) - (s + E * ⟪a⟫) = (⟪S⟫ - s) + (⟪e * a⟫ - E * ⟪a⟫) := by ring
        rw [e1]
        refine le_trans (norm_add_le _ _) ?_
        have : (δ + 7 * u) * ‖⟪a⟫‖ ≤ (δ + (7 + 3 * (k : ℝ)) * u) * ‖⟪a⟫‖ :=
          mul_le_mul_of_nonneg_right (by nlinarith [mul_nonneg hk0 hu0]) ha0
        rw [hEr]
        linarith
      have hd2 : ‖⟪S⟫ + ⟪e * a⟫‖ ≤ (T + ‖⟪a⟫‖) + Er := by
        have := norm_add_le (s + E * ⟪a⟫) ((⟪S⟫ + ⟪e * a⟫) - (s + E * ⟪a⟫))
        rw [add_sub_cancel] at this
        have := norm_add_le s (E * ⟪a⟫)
        linarith
      have hd3 : ‖⟪S + e * a⟫ - (s + E * ⟪a⟫)‖ ≤ 2 * u * ((T + ‖⟪a⟫‖) + Er) + Er := by
        have := norm_add_le (⟪S + e * a⟫ - (⟪S⟫ + ⟪e * a⟫)) ((⟪S⟫ + ⟪e * a⟫) - (s + E * ⟪a⟫))
        rw [sub_add_sub_cancel] at this
        have := mul_le_mul_of_nonneg_left hd2 (by linarith : 0 ≤ 2 * u)
        linarith
      refine le_trans hd3 ?_
      have hE2 : 2 * Er ≤ (T + ‖⟪a⟫‖) + 2 * (6 * k + 5) * η := by
        have : (δ + (7 + 3 * (k : ℝ)) * u) * (T + ‖⟪a⟫‖) ≤ 1 / 32 * (T + ‖⟪a⟫‖) :=
          mul_le_mul_of_nonneg_right (by linarith) (by linarith)
        rw [hEr]; linarith
      have h5 : u * (2 * Er) ≤ u * ((T + ‖⟪a⟫‖) + 2 * (6 * k + 5) * η) := mul_le_mul_of_nonneg_left hE2 hu0
      have h6 : u * (2 * (6 * k + 5)) * η ≤ 1 * η := mul_le_mul_of_nonneg_right (by nlinarith) hη0
      push_cast
      rw [hEr] at h5 ⊢
      nlinarith [h5, h6]
    have := acc_fold A hu hη hd l (k + 1) (S + e * a) (s + E * ⟪a⟫) (T + ‖⟪a⟫‖)
      (fun p hp => hl p (List.mem_cons_of_mem _ hp)) hk'
      (le_trans (norm_add_le _ _) (by linarith)) hδ (by linarith) hstep
    rw [List.foldl_cons, List.foldl_cons]
    have e1 : k + (l.length + 1) = k + 1 + l.length := by omega
    rw [List.length_cons, e1, ← add_assoc]
    exact this

theorem near_ecr (A : DMRange lib val u w η Ω ε n) (i j : Nat) : Near val (dmEcrMatrixF lib i j : Cx F) (dmEcrMatrix i j) (2 * ε) := by
  obtain ⟨hu0, hη0, hε0, he, h4, hu, hη, hs⟩ := A.facts
  have Acc := A.acc
  have hc := cast_small Acc invSqrt2_abs
  have hcn : |val (-lib.cast inverseSqrt2) - -inverseSqrt2| ≤ u + η := by rw [Acc.neg, ← neg_sub', abs_neg]; exact hc
  have n1 : Near val (⟨lib.cast inverseSqrt2, 0⟩ : Cx F) ⟨inverseSqrt2, 0⟩ (2 * ε) := (Near.real hc Acc.zero).mono (by linarith)
  have n2 : Near val (⟨0, lib.cast inverseSqrt2⟩ : Cx F) ⟨0, inverseSqrt2⟩ (2 * ε) := (Near.imag hc Acc.zero).mono (by linarith)
  have n3 : Near val (⟨0, -lib.cast inverseSqrt2⟩ : Cx F) ⟨0, -inverseSqrt2⟩ (2 * ε) := (Near.imag hcn Acc.zero).mono (by linarith)
  have n0 : Near val (0 : Cx F) 0 (2 * ε) := (near_self (cval_zero Acc)).mono (by linarith)
  unfold dmEcrMatrixF dmEcrMatrix
  dsimp only
  split <;>
    first
      | exact n1
      | exact n2
      | exact n3
      | (split <;> first
          | exact n0
          | simp_all)

theorem norm_ecr (i j : Nat) : ‖dmEcrMatrix i j‖ ≤ 1 := by
  have h1 : ‖(⟨inverseSqrt2, 0⟩ : ℂ)‖ ≤ 1 := by rw [norm_real]; exact invSqrt2_abs
  have h2 : ‖(⟨0, inverseSqrt2⟩ : ℂ)‖ ≤ 1 := by rw [norm_imag]; exact invSqrt2_abs
  have h3 : ‖(⟨0, -inverseSqrt2⟩ : ℂ)‖ ≤ 1 := by rw [norm_imag, abs_neg]; exact invSqrt2_abs
  have h0 : ‖(0 : ℂ)‖ ≤ 1 := by simp
  unfold dmEcrMatrix
  dsimp only
  split <;>
    first
      | exact h1
      | exact h2
      | exact h3
      | exact h0

/-! ## The passes of the controlled kernel -/

/-- row of the matrix an amplitude of the block takes -/
def ecrIdx (x y : Bool) : Nat := x.toNat + 2 * y.toNat

theorem ecrPass_any {R : Type} [_root_.Zero R] [Add R] [Mul R] (h : MasksOK 1 n (pt ||| pc) c v) (ha : IsBit pc a) (hb : IsBit pt b) (hne : a ≠ b)
    (E : Nat → Nat → R) (m : U64 → R) :
    Runs (InState (1 * 2 ^ n)) (parallelFor (workItems (1 * 2 ^ n) (pt ||| pc ||| c))
        (fun it => matBody (quadOf (insertZero it (pt ||| pc ||| c) ||| v) pc pt) E)) m
      (twoOut 1 n a b pc pt c v (fun x y p q r s => 0 + E (ecrIdx x y) 0 * p + E (ecrIdx x y) 1 * q + E (ecrIdx x y) 2 * r + E (ecrIdx x y) 3 * s) m) := by
  have hnd : ∀ x, Distinct4 x pc pt → (quadOf x pc pt).Nodup := by
    intro x d
    simp [quadOf, d.d01, d.d02, d.d03, d.d12, d.d13, d.d23]
  have hex : ∀ x, Distinct4 x pc pt → ∀ i y, (quadOf x pc pt)[i]? = some y →
      (matBody (quadOf x pc pt) E).exec m y =
        0 + E i 0 * m x + E i 1 * m (x ||| pc) + E i 2 * m (x ||| pt) + E i 3 * m (x ||| pc ||| pt) := by
    intro x d i y hy
    rw [matBody_exec _ _ (hnd x d) m hy]
    simp [quadOf]
  refine twoOut_runs (BitVec.or_comm pt pc) h ha hb hne (fun x => matBody (quadOf x pc pt) E) _ m ?_ ?_ ?_ ?_ ?_
  · intro x _
    exact matBody_within _ _ (by simp [quadOf])
  · exact fun x d => hex x d 0 x rfl
  · exact fun x d => hex x d 1 _ rfl
  · exact fun x d => hex x d 2 _ rfl
  · exact fun x d => hex x d 3 _ rfl

theorem close_ecrPass (A : DMRange lib val u w η Ω ε n) (h : MasksOK 1 n (pt ||| pc) c v) (ha : IsBit pc a) (hb : IsBit pt b) (hne : a ≠ b)
    {E : Nat → Nat → Cx F} {E' : Nat → Nat → ℂ} (hE : ∀ i j, Near val (E i j) (E' i j) (2 * ε)) (hE' : ∀ i j, ‖E' i j‖ ≤ 1) :
    CloseTo (1 * 2 ^ n) val ε η
      (.par _ (parallelFor (workItems (1 * 2 ^ n) (pt ||| pc ||| c)) (fun it => matBody (quadOf (insertZero it (pt ||| pc ||| c) ||| v) pc pt) E)))
      (.par _ (parallelFor (workItems (1 * 2 ^ n) (pt ||| pc ||| c)) (fun it => matBody (quadOf (insertZero it (pt ||| pc ||| c) ||| v) pc pt) E'))) := by
  obtain ⟨hu0, hη0, hε0, he, h4, hu, hη, hs⟩ := A.facts
  refine closeTo_two hε0 hη0 (BitVec.or_comm pt pc) h ha hb hne (fun m => ecrPass_any h ha hb hne E m) (fun m => ecrPass_any h ha hb hne E' m)
    (C := 45 * ε) (D := 25 * η) (by positivity) le_rfl (by positivity) le_rfl ?_
  intro x y p q r s hp hq hr hss
  have := acc_fold A.acc (by linarith) (by linarith) (δ := 2 * ε) (by linarith)
    [(E (ecrIdx x y) 0, E' (ecrIdx x y) 0, p), (E (ecrIdx x y) 1, E' (ecrIdx x y) 1, q), (E (ecrIdx x y) 2, E' (ecrIdx x y) 2, r),
      (E (ecrIdx x y) 3, E' (ecrIdx x y) 3, s)] 0 0 0 0 (by simp [hE, hE', hp, hq, hr, hss]) (by simp) (by simp) (by linarith)
    (by simp only [List.map_cons, List.map_nil, List.sum_cons, List.sum_nil]; linarith) (by simp [cval_zero A.acc])
  simp only [List.map_cons, List.map_nil, List.sum_cons, List.sum_nil, List.foldl_cons, List.foldl_nil, List.length_cons, List.length_nil] at this
  refine le_trans this ?_
  have hT : 0 ≤ ‖⟪p⟫‖ + ‖⟪q⟫‖ + ‖⟪r⟫‖ + ‖⟪s⟫‖ := by positivity
  have : (2 * ε + (7 + 3 * 4) * u) * (‖⟪p⟫‖ + ‖⟪q⟫‖ + ‖⟪r⟫‖ + ‖⟪s⟫‖) ≤ 45 * ε * (‖⟪p⟫‖ + ‖⟪q⟫‖ + ‖⟪r⟫‖ + ‖⟪s⟫‖) :=
    mul_le_mul_of_nonneg_right (by linarith) hT
  push_cast
  linarith

/-! ## The block of the kernel without controls -/

theorem ecrBlock_any {R : Type} [_root_.Zero R] [Add R] [Mul R] (X : Nat → Nat → R) (r c : Fin 4 → U64) (M : U64 × U64 → R) (hr : Function.Injective r)
    (hc : Function.Injective c) (i j : Fin 4) :
    (matBody ([r 0, r 1, r 2, r 3].flatMap fun x => [c 0, c 1, c 2, c 3].map fun y => (x, y)) X).exec M (r i, c j) =
      0 + X (i.val * 4 + j.val) 0 * M (r 0, c 0) + X (i.val * 4 + j.val) 1 * M (r 0, c 1) + X (i.val * 4 + j.val) 2 * M (r 0, c 2) +
        X (i.val * 4 + j.val) 3 * M (r 0, c 3) + X (i.val * 4 + j.val) 4 * M (r 1, c 0) + X (i.val * 4 + j.val) 5 * M (r 1, c 1) +
        X (i.val * 4 + j.val) 6 * M (r 1, c 2) + X (i.val * 4 + j.val) 7 * M (r 1, c 3) + X (i.val * 4 + j.val) 8 * M (r 2, c 0) +
        X (i.val * 4 + j.val) 9 * M (r 2, c 1) + X (i.val * 4 + j.val) 10 * M (r 2, c 2) + X (i.val * 4 + j.val) 11 * M (r 2, c 3) +
        X (i.val * 4 + j.val) 12 * M (r 3, c 0) + X (i.val * 4 + j.val) 13 * M (r 3, c 1) + X (i.val * 4 + j.val) 14 * M (r 3, c 2) +
        X (i.val * 4 + j.val) 15 * M (r 3, c 3) := by
  have hl : [r 0, r 1, r 2, r 3].flatMap (fun x => [c 0, c 1, c 2, c 3].map fun y => (x, y)) =
      [(r 0, c 0), (r 0, c 1), (r 0, c 2), (r 0, c 3), (r 1, c 0), (r 1, c 1), (r 1, c 2), (r 1, c 3),
       (r 2, c 0), (r 2, c 1), (r 2, c 2), (r 2, c 3), (r 3, c 0), (r 3, c 1), (r 3, c 2), (r 3, c 3)] := rfl
  have hnd : ([r 0, r 1, r 2, r 3].flatMap fun x => [c 0, c 1, c 2, c 3].map fun y => (x, y)).Nodup := by
    rw [hl]
    simp [hr.eq_iff, hc.eq_iff]
  have hidx : ([r 0, r 1, r 2, r 3].flatMap fun x => [c 0, c 1, c 2, c 3].map fun y => (x, y))[i.val * 4 + j.val]? = some (r i, c j) := by
    fin_cases i <;> fin_cases j <;> rfl
  rw [matBody_exec _ _ hnd M hidx, hl]
  rfl

theorem close_dmEcr (A : DMRange lib val u w η Ω ε n) (h : MasksOK 1 n (pt ||| pc) c v) (ha : IsBit pc a) (hb : IsBit pt b) (hne : a ≠ b)
    (hcs : ∀ j : U64, j &&& c = v ↔ CtrlOK cs j) (hcon : ∀ ψ, normSq (2 ^ n) (applyMat [a, b] ecrMat cs ψ) ≤ normSq (2 ^ n) ψ) :
    MCloseTo n val ε η (dmEcrF lib pt pc c v (2 ^ n) : List (MLaunch (Cx F))) (applyMat [a, b] ecrMat cs) := by
  obtain ⟨hu0, hη0, hε0, he, h4, hu, hη, hs⟩ := A.facts
  have Acc := A.acc
  unfold dmEcrF
  dsimp only
  split
  · next hc =>
    subst hc
    obtain rfl := v_zero h
    simp only [or_zero']
    rw [ctrl_nil hcs]
    have hbit : ∀ x, IsBase (2 ^ n) (pt ||| pc) 0 0 x → x.getLsbD a = false ∧ x.getLsbD b = false := fun x hx =>
      ⟨hx.target a (by rw [BitVec.getLsbD_or, ha.2]; simp), hx.target b (by rw [BitVec.getLsbD_or, hb.2]; simp)⟩
    refine block_close h A.qubits (cell := ecrCells pc pt) ⟨?_, ?_⟩ (fun i x => dmEcrMatrix i x) ?_
      (fun r c => matBody ([r 0, r 1, r 2, r 3].flatMap fun x => [c 0, c 1, c 2, c 3].map fun y => (x, y))
        (fun y x => dmEcrMatrixF lib (y >>> 2) (x >>> 2) * conjC (dmEcrMatrixF lib (y &&& 3) (x &&& 3)))) ?_
      (C := 71 * ε) (D := 96 * η) (by positivity) (by positivity) hε0 hη0 (by push_cast; linarith) (by linarith) ?_
    · intro x hx j
      obtain ⟨xa, xb⟩ := hbit x hx
      rw [ctCell_block hb ha]
      constructor
      · rintro ⟨u, w, rfl⟩
        refine ⟨match u, w with
          | false, false => 0
          | true, false => 1
          | false, true => 2
          | true, true => 3, ?_⟩
        rw [ecrCells_eq ha hb hne xa xb]
        cases u <;> cases w <;> rfl
      · rintro ⟨i, rfl⟩
        exact ⟨_, _, ecrCells_eq ha hb hne xa xb i⟩
    · intro x hx i j hij
      obtain ⟨xa, xb⟩ := hbit x hx
      rw [ecrCells_eq ha hb hne xa xb, ecrCells_eq ha hb hne xa xb] at hij
      obtain ⟨e1, e2⟩ := ctCell_inj hb.1 ha.1 (Ne.symm hne) hij
      rw [decide_eq_decide] at e1 e2
      apply Fin.ext
      omega
    · intro x hx ψ i
      obtain ⟨xa, xb⟩ := hbit x hx
      have hok : ∀ j : U64, CtrlOK [] j := by intro j p hp; cases hp
      rw [Fin.sum_univ_four]
      simp only [ecrCells_eq ha hb hne xa xb]
      rw [applyMat_two, if_pos (hok _)]
      simp only [ctCell_set2 ha hb hne, ctCell_q hb.1, ctCell_qc hb.1 ha.1 (Ne.symm hne)]
      have hidx : (decide (i.val % 2 = 1)).toNat + 2 * (decide (2 ≤ i.val)).toNat = i.val := by fin_cases i <;> rfl
      rw [hidx, dmEcrMatrix_eq i.isLt (by decide), dmEcrMatrix_eq i.isLt (by decide), dmEcrMatrix_eq i.isLt (by decide),
        dmEcrMatrix_eq i.isLt (by decide)]
      rfl
    · intro r c
      refine matBody_within _ _ ?_
      intro p hp
      simp only [List.mem_flatMap, List.mem_map] at hp
      obtain ⟨x, hx, y, hy, rfl⟩ := hp
      constructor
      · simp only [List.mem_cons, List.not_mem_nil, or_false] at hx
        rcases hx with rfl | rfl | rfl | rfl <;> exact ⟨_, rfl⟩
      · simp only [List.mem_cons, List.not_mem_nil, or_false] at hy
        rcases hy with rfl | rfl | rfl | rfl <;> exact ⟨_, rfl⟩
    · intro r c M hr hc hbd i j
      rw [← ecrBlock_exec dmEcrMatrix r c (fun p => ⟪M p⟫) hr hc i j, ecrBlock_any _ r c M hr hc i j, ecrBlock_any _ r c _ hr hc i j]
      generalize i.val * 4 + j.val = y
      have hE : ∀ x, Near val (dmEcrMatrixF lib (y >>> 2) (x >>> 2) * conjC (dmEcrMatrixF lib (y &&& 3) (x &&& 3)) : Cx F)
          (dmEcrMatrix (y >>> 2) (x >>> 2) * conj (dmEcrMatrix (y &&& 3) (x &&& 3))) (16 * ε) := fun x =>
        (Near.mul Acc hu hη (near_ecr A _ _) ((near_ecr A _ _).conj Acc) (norm_ecr _ _) (norm_conj_le (norm_ecr _ _)) (by linarith)
          (by linarith)).mono (by linarith)
      have hE' : ∀ x, ‖dmEcrMatrix (y >>> 2) (x >>> 2) * conj (dmEcrMatrix (y &&& 3) (x &&& 3))‖ ≤ 1 := by
        intro x
        rw [norm_mul]
        exact mul_le_one₀ (norm_ecr _ _) (norm_nonneg _) (norm_conj_le (norm_ecr _ _))
      generalize hX : (fun x => (dmEcrMatrixF lib (y >>> 2) (x >>> 2) * conjC (dmEcrMatrixF lib (y &&& 3) (x &&& 3)) : Cx F)) = X at hE
      have hXe : ∀ x, (dmEcrMatrixF lib (y >>> 2) (x >>> 2) * conjC (dmEcrMatrixF lib (y &&& 3) (x &&& 3)) : Cx F) = X x := fun x => congrFun hX x
      generalize hX' : (fun x => dmEcrMatrix (y >>> 2) (x >>> 2) * conj (dmEcrMatrix (y &&& 3) (x &&& 3))) = X' at hE hE'
      have hXe' : ∀ x, dmEcrMatrix (y >>> 2) (x >>> 2) * conj (dmEcrMatrix (y &&& 3) (x &&& 3)) = X' x := fun x => congrFun hX' x
      simp only [hXe, hXe'] at hE hE' ⊢
      have hb4 : ∀ x y, ‖⟪M (r x, c y)⟫‖ ≤ 4 := fun x y => le_trans (hbd x y) (by norm_num)
      have := acc_fold Acc (by linarith) (by linarith) (δ := 16 * ε) (by linarith)
        [(X 0, X' 0, M (r 0, c 0)), (X 1, X' 1, M (r 0, c 1)), (X 2, X' 2, M (r 0, c 2)), (X 3, X' 3, M (r 0, c 3)),
          (X 4, X' 4, M (r 1, c 0)), (X 5, X' 5, M (r 1, c 1)), (X 6, X' 6, M (r 1, c 2)), (X 7, X' 7, M (r 1, c 3)),
          (X 8, X' 8, M (r 2, c 0)), (X 9, X' 9, M (r 2, c 1)), (X 10, X' 10, M (r 2, c 2)), (X 11, X' 11, M (r 2, c 3)),
          (X 12, X' 12, M (r 3, c 0)), (X 13, X' 13, M (r 3, c 1)), (X 14, X' 14, M (r 3, c 2)), (X 15, X' 15, M (r 3, c 3))] 0 0 0 0
        (by simp [hE, hE', hb4]) (by simp) (by simp) (by linarith)
        (by
          simp only [List.map_cons, List.map_nil, List.sum_cons, List.sum_nil]
          linarith [hbd 0 0, hbd 0 1, hbd 0 2, hbd 0 3, hbd 1 0, hbd 1 1, hbd 1 2, hbd 1 3, hbd 2 0, hbd 2 1, hbd 2 2, hbd 2 3, hbd 3 0,
            hbd 3 1, hbd 3 2, hbd 3 3]) (by simp [cval_zero Acc])
      simp only [List.map_cons, List.map_nil, List.sum_cons, List.sum_nil, List.foldl_cons, List.foldl_nil, List.length_cons,
        List.length_nil] at this
      refine le_trans this ?_
      rw [Fin.sum_univ_four, Fin.sum_univ_four, Fin.sum_univ_four, Fin.sum_univ_four, Fin.sum_univ_four]
      push_cast
      rw [show ∀ p1 p2 p3 p4 p5 p6 p7 p8 p9 q1 q2 q3 q4 q5 q6 q7 : ℝ,
        0 + (p1 + (p2 + (p3 + (p4 + (p5 + (p6 + (p7 + (p8 + (p9 + (q1 + (q2 + (q3 + (q4 + (q5 + (q6 + (q7 + 0)))))))))))))))) =
        p1 + p2 + p3 + p4 + (p5 + p6 + p7 + p8) + (p9 + q1 + q2 + q3) + (q4 + q5 + q6 + q7) from fun _ _ _ _ _ _ _ _ _ _ _ _ _ _ _ _ => by ring]
      have hm := fun {T : ℝ} (hT : 0 ≤ T) => mul_le_mul_of_nonneg_right
        (show 16 * ε + (7 + 3 * 16) * u ≤ 71 * ε by linarith) hT
      refine add_le_add (hm (by positivity)) (le_of_eq ?_)
      ring
  · have hEc : ∀ i j, Near val (conjC (dmEcrMatrixF lib i j) : Cx F) (conj (dmEcrMatrix i j)) (2 * ε) := fun i j => (near_ecr A i j).conj Acc
    exact two_pass_close1 A.qubits hε0 hη0 hs (fun m => ⟨_, ecrPass_any h ha hb hne _ m⟩) (fun m => ⟨_, ecrPass_any h ha hb hne _ m⟩)
      (close_ecrPass A h ha hb hne (near_ecr A) norm_ecr) (close_ecrPass A h ha hb hne hEc (fun i j => norm_conj_le (norm_ecr i j)))
      (fun m => ecrPass_spec h ha hb hne hcs dmEcrMatrix ecrMat (fun i j hi hj => (dmEcrMatrix_eq hi hj).symm) m)
      (fun m => ecrPass_spec h ha hb hne hcs (fun i j => conj (dmEcrMatrix i j)) (fun i j => conj (ecrMat i j))
        (fun i j hi hj => by rw [dmEcrMatrix_eq hi hj]) m) hcon
      (fun _ _ => matBody_map _ _ _) (fun _ _ => matBody_map _ _ _)

end
end Verif.Proofs
