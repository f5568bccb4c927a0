import Verif.Model.FloatDensityRead
import Verif.Proofs.FloatRead
import Verif.Proofs.DensityRead
import Verif.Proofs.PartialTrace
import Verif.Spec.Frobenius

/-! # Readings of density matrices in floating-point arithmetic -/

namespace Verif.Proofs
open Verif Verif.Spec Verif.Model
attribute [-simp] BitVec.getLsbD_eq_getElem

theorem readM_inv {dim : Nat} {raw : U64 × U64 → ℂ} {p : U64 × U64} {z : ℂ} (h : readM dim raw p = .ok z) :
    (p.1.toNat < dim ∧ p.2.toNat < dim) ∧ z = raw p := by
  unfold readM at h
  split at h
  · next hp => exact ⟨hp, (Except.ok.inj h).symm⟩
  · cases h

theorem diag_inv {d : DM} {i : U64} {x : ℝ} (h : d.diag i = .ok x) : i.toNat < 2 ^ d.n ∧ x = (d.raw (i, i)).re := by
  unfold DM.diag at h
  cases hz : readM (2 ^ d.n) d.raw (i, i) with
  | error e => rw [hz] at h; cases h
  | ok z =>
    rw [hz] at h
    obtain ⟨h1, rfl⟩ := readM_inv hz
    exact ⟨h1.1, (Except.ok.inj h).symm⟩

section
variable {F : Type} [_root_.Zero F] [One F] [Add F] [Sub F] [Mul F] [Neg F] {lib : FloatLib F} {val : F → ℝ} {u w η Ω : ℝ}

local notation "⟪" x "⟫" => cval val x

theorem readMF_ok {R : Type} {dim : Nat} (raw : U64 × U64 → R) {p : U64 × U64} (h : p.1.toNat < dim ∧ p.2.toNat < dim) :
    readMF dim raw p = .ok (raw p) := if_pos h

/-- a sum of numbers of the arithmetic, the error counted with `K ≥ N` additions -/
theorem reducesTo_range (A : Accurate lib val u w η Ω) (Z : AddZero val Ω) {N K : Nat} (hN : N ≤ K) {g : Nat → F} {D S : ℝ}
    (hS : S = ∑ i ∈ Finset.range N, val (g i)) (hD : ∑ i ∈ Finset.range N, |val (g i)| ≤ D) (hΩ : (1 + u) ^ K * D ≤ Ω) {s : F}
    (hs : ReducesTo ((List.range N).map g) s) : |val s - S| ≤ ((1 + u) ^ K - 1) * D := by
  have hu := A.u_nonneg
  have h1u : 1 ≤ 1 + u := by linarith
  have ha : absSum val ((List.range N).map g) = ∑ i ∈ Finset.range N, |val (g i)| := by
    unfold absSum
    rw [List.map_map]
    exact sum_map_range N _
  have hv : (((List.range N).map g).map val).sum = S := by
    rw [hS, List.map_map]
    exact sum_map_range N _
  have h0 : 0 ≤ ∑ i ∈ Finset.range N, |val (g i)| := Finset.sum_nonneg fun i _ => abs_nonneg _
  have hp : (1 + u) ^ N ≤ (1 + u) ^ K := pow_le_pow_right₀ h1u hN
  have hp' : (1 + u) ^ (N - 1) ≤ (1 + u) ^ K := pow_le_pow_right₀ h1u (by omega)
  have h1 : 1 ≤ (1 + u) ^ K := one_le_pow₀ h1u
  have := reducesTo_err A Z hs (by
    rw [List.length_map, List.length_range, ha]
    exact le_trans (mul_le_mul hp hD h0 (by positivity)) hΩ)
  rw [List.length_map, List.length_range, ha, hv] at this
  exact this.trans (mul_le_mul (by linarith) hD h0 (by linarith))

/-- a sum of diagonal elements -/
theorem diag_reduction (A : Accurate lib val u w η Ω) (Z : AddZero val Ω) {n N K : Nat} (hN : N ≤ K) {b : Bool} {raw : U64 × U64 → Cx F}
    {idx : U64 → U64} {S D D' : ℝ} (hS : reduceSum N (fun i => DM.diag ⟨n, b, fun p => ⟪raw p⟫⟩ (idx i)) = .ok S)
    (hD : reduceSum N (fun i => DM.diag ⟨n, b, fun p => ((|(⟪raw p⟫).re| : ℝ) : ℂ)⟩ (idx i)) = .ok D') (hle : D' ≤ D)
    (hΩ : (1 + u) ^ K * D ≤ Ω) :
    (∃ r, RangeReduction N (fun i => diagF (F := F) (2 ^ n) raw (idx i)) r) ∧
    ∀ r, RangeReduction N (fun i => diagF (2 ^ n) raw (idx i)) r → ∃ s, r = .ok s ∧ |val s - S| ≤ ((1 + u) ^ K - 1) * D := by
  obtain ⟨g, hg, hSg⟩ := reduceSum_inv hS
  obtain ⟨g', hg', hDg⟩ := reduceSum_inv hD
  have hok : ∀ i, i < N → diagF (F := F) (2 ^ n) raw (idx (BitVec.ofNat 64 i)) =
      .ok (raw (idx (BitVec.ofNat 64 i), idx (BitVec.ofNat 64 i))).re := by
    intro i hi
    have := (diag_inv (hg i hi)).1
    unfold diagF
    rw [readMF_ok raw ⟨this, this⟩]
    rfl
  have e1 : S = ∑ i ∈ Finset.range N, val (raw (idx (BitVec.ofNat 64 i), idx (BitVec.ofNat 64 i))).re := by
    rw [hSg]
    exact Finset.sum_congr rfl fun i hi => (diag_inv (hg i (Finset.mem_range.1 hi))).2
  have e2 : ∑ i ∈ Finset.range N, |val (raw (idx (BitVec.ofNat 64 i), idx (BitVec.ofNat 64 i))).re| ≤ D := by
    refine le_trans (le_of_eq ?_) hle
    rw [hDg]
    refine Finset.sum_congr rfl fun i hi => ?_
    rw [(diag_inv (hg' i (Finset.mem_range.1 hi))).2, Complex.ofReal_re]
    rfl
  constructor
  · obtain ⟨s, hs⟩ := reducesTo_exists ((List.range N).map fun i => (raw (idx (BitVec.ofNat 64 i), idx (BitVec.ofNat 64 i))).re)
    exact ⟨.ok s, (rangeReduction_ok hok _).2 ⟨s, rfl, hs⟩⟩
  · intro r hr
    obtain ⟨s, rfl, hs⟩ := (rangeReduction_ok hok _).1 hr
    exact ⟨s, rfl, reducesTo_range A Z hN e1 e2 hΩ hs⟩

/-- a sum of elements -/
theorem cells_reduction (A : Accurate lib val u w η Ω) (Z : AddZero val Ω) {dim N : Nat} {raw : U64 × U64 → Cx F}
    {idx : U64 → U64 × U64} {S D : ℂ} (hS : reduceSum N (fun i => readM dim (fun p => ⟪raw p⟫) (idx i)) = .ok S)
    (hD : reduceSum N (fun i => readM dim (fun p => ((‖⟪raw p⟫‖ : ℝ) : ℂ)) (idx i)) = .ok D) (hΩ : (1 + u) ^ N * D.re ≤ Ω) :
    (∃ s, RangeReduction N (fun i => readMF dim raw (idx i)) (.ok s)) ∧
    ∀ r, RangeReduction N (fun i => readMF dim raw (idx i)) r →
      ∃ s, r = .ok s ∧ |val s.re - S.re| ≤ ((1 + u) ^ N - 1) * D.re ∧ |val s.im - S.im| ≤ ((1 + u) ^ N - 1) * D.re := by
  obtain ⟨g, hg, hSg⟩ := reduceSum_inv hS
  obtain ⟨g', hg', hDg⟩ := reduceSum_inv hD
  have hok : ∀ i, i < N → readMF dim raw (idx (BitVec.ofNat 64 i)) = .ok (raw (idx (BitVec.ofNat 64 i))) :=
    fun i hi => readMF_ok raw (readM_inv (hg i hi)).1
  have e0 : S = ∑ i ∈ Finset.range N, ⟪raw (idx (BitVec.ofNat 64 i))⟫ := by
    rw [hSg]
    exact Finset.sum_congr rfl fun i hi => (readM_inv (hg i (Finset.mem_range.1 hi))).2
  have e2 : D.re = ∑ i ∈ Finset.range N, ‖⟪raw (idx (BitVec.ofNat 64 i))⟫‖ := by
    rw [hDg, Complex.re_sum]
    refine Finset.sum_congr rfl fun i hi => ?_
    rw [(readM_inv (hg' i (Finset.mem_range.1 hi))).2, Complex.ofReal_re]
  constructor
  · obtain ⟨s, hs⟩ := reducesTo_exists ((List.range N).map fun i => raw (idx (BitVec.ofNat 64 i)))
    exact ⟨s, (rangeReduction_ok hok _).2 ⟨s, rfl, hs⟩⟩
  · intro r hr
    obtain ⟨s, rfl, hs⟩ := (rangeReduction_ok hok _).1 hr
    have hre := reducesTo_re hs
    have him := reducesTo_im hs
    rw [List.map_map] at hre him
    refine ⟨s, rfl, reducesTo_range A Z le_rfl (by rw [e0, Complex.re_sum]; rfl) ?_ hΩ hre,
      reducesTo_range A Z le_rfl (by rw [e0, Complex.im_sum]; rfl) ?_ hΩ him⟩
    · rw [e2]; exact Finset.sum_le_sum fun i _ => Complex.abs_re_le_norm ⟪raw (idx (BitVec.ofNat 64 i))⟫
    · rw [e2]; exact Finset.sum_le_sum fun i _ => Complex.abs_im_le_norm ⟪raw (idx (BitVec.ofNat 64 i))⟫

theorem sum_product (l l' : List Nat) (f : Nat × Nat → ℝ) :
    ((l.product l').map f).sum = (l.map fun i => (l'.map fun j => f (i, j)).sum).sum := by
  induction l with
  | nil => rfl
  | cons a l ih =>
    rw [show (a :: l).product l' = (l'.map fun j => (a, j)) ++ l.product l' from rfl, List.map_append, List.sum_append, ih,
      List.map_map, List.map_cons, List.sum_cons]
    rfl

/-- the sum of all squared elements -/
theorem purity_reduction (A : Accurate lib val u w η Ω) (Z : AddZero val Ω) (hu : u ≤ 1 / 64) (hη : η ≤ 1 / 64) {n : Nat} (hn : n < 64)
    {raw : U64 × U64 → Cx F} (hm : ∀ p : U64 × U64, p.1.toNat < 2 ^ n → p.2.toNat < 2 ^ n → ‖⟪raw p⟫‖ ≤ 4) {P : ℝ}
    (hP : P = frob (2 ^ n) (fun p => ⟪raw p⟫) ^ 2)
    (hΩ : ((1 : ℝ) + u) ^ (4 ^ n + 2) * (P + 2 * ((4 ^ n : ℕ) : ℝ) * η) ≤ Ω) :
    (∃ r, PurityF (F := F) n true raw r) ∧
    ∀ r, PurityF (F := F) n true raw r → ∃ s, r = .ok s ∧ |val s - P| ≤ sumErr u η (4 ^ n) P := by
  have hu0 := A.u_nonneg
  have hη0 := A.eta_nonneg
  have hp : (2 : Nat) ^ n < 2 ^ 64 := Nat.pow_lt_pow_right (by norm_num) hn
  generalize hl : (List.range (2 ^ n)).product (List.range (2 ^ n)) = l
  have hlen : l.length = 4 ^ n := by
    rw [← hl]
    refine (List.length_product _ _).trans ?_
    rw [List.length_range, ← mul_pow]
    norm_num
  have hin : ∀ p ∈ l, (BitVec.ofNat 64 p.1).toNat < 2 ^ n ∧ (BitVec.ofNat 64 p.2).toNat < 2 ^ n := by
    intro p h
    rw [← hl] at h
    have h := List.pair_mem_product.1 (show (p.1, p.2) ∈ (List.range (2 ^ n)) ×ˢ (List.range (2 ^ n)) from h)
    rw [List.mem_range, List.mem_range] at h
    rw [Verif.toNat_ofNat_lt (h.1.trans hp), Verif.toNat_ofNat_lt (h.2.trans hp)]
    exact h
  have hok : ∀ p ∈ l, (do
      let z ← readMF (2 ^ n) raw (BitVec.ofNat 64 p.1, BitVec.ofNat 64 p.2)
      pure (squaredC z) : Res F) = .ok (squaredC (raw (BitVec.ofNat 64 p.1, BitVec.ofNat 64 p.2))) := by
    intro p h
    rw [readMF_ok raw (hin p h)]
    rfl
  have hg : (l.map fun p => Complex.normSq ⟪raw (BitVec.ofNat 64 p.1, BitVec.ofNat 64 p.2)⟫).sum = P := by
    rw [hP, ← hl, sum_product]
    unfold frob
    rw [Real.sq_sqrt (Finset.sum_nonneg fun _ _ => Finset.sum_nonneg fun _ _ => by positivity), sum_map_range]
    refine Finset.sum_congr rfl fun i _ => ?_
    rw [sum_map_range]
    exact Finset.sum_congr rfl fun j _ => (Complex.sq_norm _).symm
  have hP0 : 0 ≤ P := by rw [hP]; positivity
  have hδ : (l.map fun _ => (1 + u) * (2 * η)).sum = ((4 ^ n : ℕ) : ℝ) * ((1 + u) * (2 * η)) := by
    rw [List.map_const', List.sum_replicate, hlen, nsmul_eq_mul]
  have hN : 1 ≤ 4 ^ n := Nat.one_le_pow _ _ (by norm_num)
  unfold PurityF
  simp only [if_neg (show ¬ (true = false) by simp), hl]
  constructor
  · obtain ⟨s, hs⟩ := reducesTo_exists (l.map fun p => squaredC (raw (BitVec.ofNat 64 p.1, BitVec.ofNat 64 p.2)) : List F)
    exact ⟨.ok s, (reduction_ok hok _).2 ⟨s, rfl, hs⟩⟩
  · intro r hr
    obtain ⟨s, rfl, hs⟩ := (reduction_ok hok _).1 hr
    refine ⟨s, rfl, ?_⟩
    have := reducesTo_appr A Z (k := 2) (g := fun p => Complex.normSq ⟪raw (BitVec.ofNat 64 p.1, BitVec.ofNat 64 p.2)⟫)
      (G := fun p => Complex.normSq ⟪raw (BitVec.ofNat 64 p.1, BitVec.ofNat 64 p.2)⟫) (δ := fun _ => (1 + u) * (2 * η))
      (fun p hp => squaredC_appr A hu hη (hm _ (hin p hp).1 (hin p hp).2)) hs
      (by
        rw [hlen, hg, hδ]
        refine le_trans ?_ hΩ
        rw [pow_add (1 + u) (4 ^ n) 2, mul_assoc]
        refine mul_le_mul_of_nonneg_left ?_ (by positivity)
        rw [mul_add]
        refine add_le_add le_rfl ?_
        have : 0 ≤ ((4 ^ n : ℕ) : ℝ) * η := by positivity
        nlinarith [mul_nonneg hu0 this, mul_nonneg hu0 (mul_nonneg hu0 this)])
    rw [hlen, hg, hδ] at this
    unfold sumErr
    have e1 : 4 ^ n - 1 + 2 = 4 ^ n + 1 := by omega
    have e2 : (1 + u) ^ (4 ^ n) = (1 + u) ^ (4 ^ n - 1) * (1 + u) := by rw [← pow_succ]; congr 1; omega
    rw [e1] at this
    rw [e2]
    linarith

/-- one team of `get_partial_trace` -/
theorem ptSumF_close (A : Accurate lib val u w η Ω) (Z : AddZero val Ω) {n : Nat} {qs : List Nat} (hn : n < 64) (hnd : qs.Nodup)
    (hq : ∀ q ∈ qs, q < n) {mask : U64} (hm : vectorToMask qs = .ok mask) {raw : U64 × U64 → Cx F} {i j : Nat}
    (hi : i < 2 ^ (n - qs.length)) (hj : j < 2 ^ (n - qs.length))
    (hΩ : (1 + u) ^ (2 ^ qs.length) *
      (partialTraceOf n qs (fun p => ((‖⟪raw p⟫‖ : ℝ) : ℂ)) (BitVec.ofNat 64 i, BitVec.ofNat 64 j)).re ≤ Ω) :
    (∃ s, PtSumF n raw mask qs.length (BitVec.ofNat 64 i) (BitVec.ofNat 64 j) (.ok s)) ∧
    ∀ r, PtSumF n raw mask qs.length (BitVec.ofNat 64 i) (BitVec.ofNat 64 j) r → ∃ s, r = .ok s ∧
      |val s.re - (partialTraceOf n qs (fun p => ⟪raw p⟫) (BitVec.ofNat 64 i, BitVec.ofNat 64 j)).re| ≤ ((1 + u) ^ (2 ^ qs.length) - 1) *
        (partialTraceOf n qs (fun p => ((‖⟪raw p⟫‖ : ℝ) : ℂ)) (BitVec.ofNat 64 i, BitVec.ofNat 64 j)).re ∧
      |val s.im - (partialTraceOf n qs (fun p => ⟪raw p⟫) (BitVec.ofNat 64 i, BitVec.ofNat 64 j)).im| ≤ ((1 + u) ^ (2 ^ qs.length) - 1) *
        (partialTraceOf n qs (fun p => ((‖⟪raw p⟫‖ : ℝ) : ℂ)) (BitVec.ofNat 64 i, BitVec.ofNat 64 j)).re := by
  have h1 := ptSum_eq (d := ⟨n, false, fun p => ⟪raw p⟫⟩) hn hnd hq hm hi hj
  have h2 := ptSum_eq (d := ⟨n, false, fun p => ((‖⟪raw p⟫‖ : ℝ) : ℂ)⟩) hn hnd hq hm hi hj
  exact cells_reduction A Z h1 h2 hΩ

/-- all teams of `get_partial_trace` -/
theorem partialTraceF_close (A : Accurate lib val u w η Ω) (Z : AddZero val Ω) {n : Nat} {qs : List Nat} (hn : n < 32) (hne : qs ≠ [])
    (hnd : qs.Nodup) (hq : ∀ q ∈ qs, q < n) (h16 : n - qs.length < 16) {raw : U64 × U64 → Cx F}
    (hΩ : ∀ i j, i < 2 ^ (n - qs.length) → j < 2 ^ (n - qs.length) → (1 + u) ^ (2 ^ qs.length) *
      (partialTraceOf n qs (fun p => ((‖⟪raw p⟫‖ : ℝ) : ℂ)) (BitVec.ofNat 64 i, BitVec.ofNat 64 j)).re ≤ Ω) :
    (∃ r, PartialTraceF n raw qs r) ∧ ∀ r, PartialTraceF n raw qs r → ∃ raw', r = .ok (n - qs.length, raw') ∧
      ∀ i j, i < 2 ^ (n - qs.length) → j < 2 ^ (n - qs.length) →
        |val (raw' (BitVec.ofNat 64 i, BitVec.ofNat 64 j)).re - (partialTraceOf n qs (fun p => ⟪raw p⟫) (BitVec.ofNat 64 i, BitVec.ofNat 64 j)).re| ≤
          ((1 + u) ^ (2 ^ qs.length) - 1) *
          (partialTraceOf n qs (fun p => ((‖⟪raw p⟫‖ : ℝ) : ℂ)) (BitVec.ofNat 64 i, BitVec.ofNat 64 j)).re ∧
        |val (raw' (BitVec.ofNat 64 i, BitVec.ofNat 64 j)).im - (partialTraceOf n qs (fun p => ⟪raw p⟫) (BitVec.ofNat 64 i, BitVec.ofNat 64 j)).im| ≤
          ((1 + u) ^ (2 ^ qs.length) - 1) *
          (partialTraceOf n qs (fun p => ((‖⟪raw p⟫‖ : ℝ) : ℂ)) (BitVec.ofNat 64 i, BitVec.ofNat 64 j)).re := by
  have hle := length_le_of_nodup hnd hq
  obtain ⟨mask, hm⟩ := (vectorToMask_ok_iff qs).2 ⟨hnd, fun q h => by have := hq q h; omega⟩
  have hpc : popcount mask = qs.length := by
    rw [popcount_maskOf (maskOf_traced (by omega) hq hm), length_traced hnd hq]
  have hdiv : 2 ^ n / 2 ^ qs.length = 2 ^ (n - qs.length) := Nat.pow_div hle (by norm_num)
  have hsm : 2 ^ (n - qs.length) ≤ 2 ^ 15 := Nat.pow_le_pow_right (by norm_num) (by omega)
  have hsq : 2 ^ (n - qs.length) * 2 ^ (n - qs.length) < 2 ^ 31 :=
    lt_of_le_of_lt (Nat.mul_le_mul hsm hsm) (by norm_num)
  have hpos : 0 < 2 ^ (n - qs.length) := Nat.two_pow_pos _
  have hcell := fun i j hi hj => ptSumF_close A Z (by omega) hnd hq hm (raw := raw) (i := i) (j := j) hi hj (hΩ i j hi hj)
  have hbnd : ∀ rank, rank < 2 ^ (n - qs.length) * 2 ^ (n - qs.length) →
      rank / 2 ^ (n - qs.length) < 2 ^ (n - qs.length) ∧ rank % 2 ^ (n - qs.length) < 2 ^ (n - qs.length) :=
    fun rank h => ⟨(Nat.div_lt_iff_lt_mul hpos).2 h, Nat.mod_lt _ hpos⟩
  have hrow : ∀ rank, rank < 2 ^ (n - qs.length) * 2 ^ (n - qs.length) →
      (BitVec.ofNat 64 rank >>> (n - qs.length) : U64) = BitVec.ofNat 64 (rank / 2 ^ (n - qs.length)) ∧
      (BitVec.ofNat 64 rank &&& BitVec.ofNat 64 (2 ^ (n - qs.length) - 1) : U64) = BitVec.ofNat 64 (rank % 2 ^ (n - qs.length)) :=
    fun rank h => rank_row (by omega) (by omega)
  have hunf : ∀ r, PartialTraceF n raw qs r ↔ match r with
      | .ok r => r.1 = n - qs.length ∧ ∀ rank, rank < 2 ^ (n - qs.length) * 2 ^ (n - qs.length) →
          PtSumF n raw mask qs.length (BitVec.ofNat 64 (rank / 2 ^ (n - qs.length))) (BitVec.ofNat 64 (rank % 2 ^ (n - qs.length)))
            (.ok (r.2 (BitVec.ofNat 64 (rank / 2 ^ (n - qs.length)), BitVec.ofNat 64 (rank % 2 ^ (n - qs.length)))))
      | .error e => ∃ rank, rank < 2 ^ (n - qs.length) * 2 ^ (n - qs.length) ∧
          PtSumF n raw mask qs.length (BitVec.ofNat 64 (rank / 2 ^ (n - qs.length))) (BitVec.ofNat 64 (rank % 2 ^ (n - qs.length)))
            (.error e) := by
    intro r
    unfold PartialTraceF
    rw [if_neg hne, if_neg (by push Not; exact hq)]
    simp only [hm, hpc, ne_eq, not_true_eq_false, if_false, hdiv, leagueSize_small hsq]
    cases r with
    | ok r =>
      refine and_congr_right fun _ => forall_congr' fun rank => forall_congr' fun h => ?_
      rw [(hrow rank h).1, (hrow rank h).2]
    | error e =>
      refine exists_congr fun rank => and_congr_right fun h => ?_
      rw [(hrow rank h).1, (hrow rank h).2]
  constructor
  · choose f hf using fun i j hi hj => (hcell i j hi hj).1
    refine ⟨.ok (n - qs.length, fun p => if h : p.1.toNat < 2 ^ (n - qs.length) ∧ p.2.toNat < 2 ^ (n - qs.length) then
      f p.1.toNat p.2.toNat h.1 h.2 else raw p), (hunf _).2 ⟨rfl, fun rank h => ?_⟩⟩
    obtain ⟨h1, h2⟩ := hbnd rank h
    have hv : ∀ x : Nat, x < 2 ^ (n - qs.length) → (BitVec.ofNat 64 x).toNat = x := fun x hx => Verif.toNat_ofNat_lt (by omega)
    dsimp only
    rw [dif_pos ⟨by rw [hv _ h1]; exact h1, by rw [hv _ h2]; exact h2⟩]
    simp only [hv _ h1, hv _ h2]
    exact hf _ _ h1 h2
  · intro r hr
    have hr := (hunf r).1 hr
    cases r with
    | error e =>
      obtain ⟨rank, h, he⟩ := hr
      obtain ⟨s, hs, -⟩ := (hcell _ _ (hbnd rank h).1 (hbnd rank h).2).2 _ he
      cases hs
    | ok r =>
      obtain ⟨h1, h2⟩ := hr
      refine ⟨r.2, by rw [← h1], fun i j hi hj => ?_⟩
      have hlt : i * 2 ^ (n - qs.length) + j < 2 ^ (n - qs.length) * 2 ^ (n - qs.length) := by
        have : (i + 1) * 2 ^ (n - qs.length) ≤ 2 ^ (n - qs.length) * 2 ^ (n - qs.length) := Nat.mul_le_mul_right _ hi
        rw [Nat.add_mul, Nat.one_mul] at this
        omega
      have h3 := h2 _ hlt
      rw [show (i * 2 ^ (n - qs.length) + j) / 2 ^ (n - qs.length) = i by
          rw [Nat.add_comm, Nat.add_mul_div_right _ _ hpos, Nat.div_eq_of_lt hj, Nat.zero_add],
        show (i * 2 ^ (n - qs.length) + j) % 2 ^ (n - qs.length) = j by
          rw [Nat.add_comm, Nat.add_mul_mod_self_right, Nat.mod_eq_of_lt hj]] at h3
      obtain ⟨s, hs, h4⟩ := (hcell i j hi hj).2 _ h3
      rw [Except.ok.inj hs]
      exact h4

end

end Verif.Proofs
