import Verif.Proofs.FloatSampling
import Verif.Proofs.StateVec

/-! # The cumulative sums computed by a scan -/

namespace Verif.Proofs
open Verif Verif.Spec Verif.Model
attribute [-simp] BitVec.getLsbD_eq_getElem

section
variable {F : Type} [_root_.Zero F] [Add F]

theorem reducesTo_snoc {l : List F} {a : F} (h : ReducesTo l a) (x : F) : ReducesTo (l ++ [x]) (a + x) :=
  .perm (List.perm_append_comm (l₁ := [x]) (l₂ := l)) (.item x h)

omit [_root_.Zero F] in
theorem runningSums_length (a : F) (xs : List F) : (runningSums a xs).length = xs.length := by
  induction xs generalizing a with
  | nil => rfl
  | cons x xs ih => simp [runningSums, ih]

theorem blockScan_length (a : F) (bs : List (List F)) : (blockScan a bs).length = bs.flatten.length := by
  induction bs generalizing a with
  | nil => rfl
  | cons b bs ih => simp [blockScan, runningSums_length, ih]

theorem runningSums_reduces {pre : List F} {a : F} (h : ReducesTo pre a) {xs : List F} {i : Nat} {y : F} (hy : (runningSums a xs)[i]? = some y) :
    ReducesTo (pre ++ xs.take (i + 1)) y := by
  induction xs generalizing pre a i with
  | nil => simp [runningSums] at hy
  | cons x xs ih =>
    have h' := reducesTo_snoc h x
    cases i with
    | zero =>
      simp only [runningSums, List.getElem?_cons_zero, Option.some.injEq] at hy
      subst hy
      simpa using h'
    | succ i =>
      simp only [runningSums, List.getElem?_cons_succ] at hy
      have := ih h' hy
      simpa using this

theorem foldl_reduces {pre : List F} {a : F} (h : ReducesTo pre a) (xs : List F) : ReducesTo (pre ++ xs) (xs.foldl (· + ·) a) := by
  induction xs generalizing pre a with
  | nil => simpa using h
  | cons x xs ih => simpa using ih (reducesTo_snoc h x)

theorem blockScan_reduces {pre : List F} {a : F} (h : ReducesTo pre a) {bs : List (List F)} {i : Nat} {y : F} (hy : (blockScan a bs)[i]? = some y) :
    ReducesTo (pre ++ bs.flatten.take (i + 1)) y := by
  induction bs generalizing pre a i with
  | nil => simp [blockScan] at hy
  | cons b bs ih =>
    rw [blockScan, List.getElem?_append, runningSums_length] at hy
    by_cases hi : i < b.length
    · rw [if_pos hi] at hy
      have := runningSums_reduces h hy
      rw [List.flatten_cons, List.take_append_of_le_length (by omega)]
      exact this
    · rw [if_neg hi] at hy
      have ht : ReducesTo b (blockTotal b) := by simpa [blockTotal] using foldl_reduces (.init : ReducesTo ([] : List F) 0) b
      have := ih (.join h ht) hy
      rw [List.flatten_cons, List.take_append, List.take_of_length_le (by omega), ← List.append_assoc]
      rw [show i - b.length + 1 = i + 1 - b.length by omega] at this
      exact this

/-- the host back ends compute one of the possible tables -/
theorem blockTable_scan {xs s : List F} (h : BlockTable xs s) : ScanTable xs s := by
  obtain ⟨bs, rfl, rfl⟩ := h
  refine ⟨by simp [blockScan_length], rfl, fun i y hy => ?_⟩
  have := blockScan_reduces (.init : ReducesTo ([] : List F) 0) (by simpa using hy)
  simpa using this

theorem blockTable_exists (xs : List F) : ∃ s, BlockTable xs s := ⟨_, [xs], by simp, rfl⟩

/-! ## elements that do not start a block -/

omit [_root_.Zero F] in
theorem runningSums_step {a x : F} {xs : List F} {k : Nat} (h : xs[k]? = some x) :
    ∃ p, (a :: runningSums a xs)[k]? = some p ∧ (runningSums a xs)[k]? = some (p + x) := by
  induction xs generalizing a k with
  | nil => simp at h
  | cons y ys ih =>
    cases k with
    | zero =>
      simp only [List.getElem?_cons_zero, Option.some.injEq] at h
      subst h
      exact ⟨a, rfl, rfl⟩
    | succ k =>
      simp only [List.getElem?_cons_succ] at h
      obtain ⟨p, h1, h2⟩ := ih (a := a + y) h
      exact ⟨p, by simpa [runningSums] using h1, by simpa [runningSums] using h2⟩

theorem blockScan_step {a x : F} {bs : List (List F)} {k : Nat} (h : bs.flatten[k]? = some x)
    (hk : ∀ j, 1 ≤ j → (bs.take j).flatten.length = k → j ≥ bs.length) :
    ∃ p, (a :: blockScan a bs)[k]? = some p ∧ (blockScan a bs)[k]? = some (p + x) := by
  induction bs generalizing a k with
  | nil => simp at h
  | cons b bs ih =>
    rw [List.flatten_cons, List.getElem?_append] at h
    by_cases hi : k < b.length
    · rw [if_pos hi] at h
      obtain ⟨p, h1, h2⟩ := runningSums_step (a := a) h
      refine ⟨p, ?_, ?_⟩
      · rw [blockScan, ← List.cons_append, List.getElem?_append_left (by simp [runningSums_length]; omega)]
        exact h1
      · rw [blockScan, List.getElem?_append_left (by simp [runningSums_length]; omega)]
        exact h2
    · rw [if_neg hi] at h
      have hlt : k - b.length < bs.flatten.length := (List.getElem?_eq_some_iff.1 h).1
      have hne : k ≠ b.length := by
        intro e
        have := hk 1 le_rfl (by simp [e])
        cases bs with
        | nil => simp at hlt
        | cons c cs => simp at this
      obtain ⟨p, h1, h2⟩ := ih (a := a + blockTotal b) h (fun j hj hl => by
        have := hk (j + 1) (by omega) (by rw [List.take_succ_cons, List.flatten_cons, List.length_append, hl]; omega)
        simpa using this)
      refine ⟨p, ?_, ?_⟩
      · obtain ⟨m, hm⟩ : ∃ m, k - b.length = m + 1 := ⟨k - b.length - 1, by omega⟩
        rw [hm, List.getElem?_cons_succ] at h1
        rw [blockScan, show k = (m + b.length) + 1 by omega, List.getElem?_cons_succ, List.getElem?_append_right (by rw [runningSums_length]; omega),
          runningSums_length, Nat.add_sub_cancel]
        exact h1
      · rw [blockScan, List.getElem?_append_right (by rw [runningSums_length]; omega), runningSums_length]
        exact h2

omit [_root_.Zero F] in
theorem runningSums_last (a : F) (xs : List F) : (a :: runningSums a xs)[xs.length]? = some (xs.foldl (· + ·) a) := by
  induction xs generalizing a with
  | nil => rfl
  | cons x xs ih => simpa [runningSums] using ih (a + x)

theorem blockScan_head {a x : F} {bs : List (List F)} (h : bs.flatten[0]? = some x)
    (hk : ∀ j, 1 ≤ j → (bs.take j).flatten.length = 0 → j ≥ bs.length) : (blockScan a bs)[0]? = some (a + x) := by
  obtain ⟨p, h1, h2⟩ := blockScan_step (a := a) h hk
  simp only [List.getElem?_cons_zero, Option.some.injEq] at h1
  rw [h2, h1]

/-- at the start of the second block -/
theorem blockScan_second {x : F} {b : List F} {bs : List (List F)} (h : (b :: bs).flatten[b.length]? = some x)
    (hk : ∀ j, 2 ≤ j → ((b :: bs).take j).flatten.length = b.length → j ≥ (b :: bs).length) :
    (0 :: blockScan 0 (b :: bs))[b.length]? = some (blockTotal b) ∧ (blockScan 0 (b :: bs))[b.length]? = some (0 + blockTotal b + x) := by
  constructor
  · rw [blockScan, ← List.cons_append, List.getElem?_append_left (by simp [runningSums_length])]
    exact runningSums_last 0 b
  · rw [blockScan, List.getElem?_append_right (by rw [runningSums_length]), runningSums_length, Nat.sub_self]
    rw [List.flatten_cons, List.getElem?_append_right le_rfl, Nat.sub_self] at h
    refine blockScan_head h fun j hj hl => ?_
    have := hk (j + 1) (by omega) (by rw [List.take_succ_cons, List.flatten_cons, List.length_append, hl]; rfl)
    simpa using this

end

/-! ## accuracy -/

section
variable {F : Type} [_root_.Zero F] [One F] [Add F] [Sub F] [Mul F] [Neg F] {lib : FloatLib F} {val : F → ℝ} {u w η Ω : ℝ}
local notation "⟪" x "⟫" => cval val x

theorem sumErr_mono (hu0 : 0 ≤ u) (hη0 : 0 ≤ η) {N N' : Nat} {P P' : ℝ} (hN : N ≤ N') (hP : P ≤ P') (hP' : 0 ≤ P') : sumErr u η N P ≤ sumErr u η N' P' := by
  unfold sumErr
  have h1 : (1 + u) ^ (N + 1) ≤ (1 + u) ^ (N' + 1) := pow_le_pow_right₀ (by linarith) (by omega)
  have h2 : (1 + u) ^ N ≤ (1 + u) ^ N' := pow_le_pow_right₀ (by linarith) hN
  have h3 : 1 ≤ (1 + u) ^ (N + 1) := one_le_pow₀ (by linarith)
  have h4 : (N : ℝ) ≤ N' := by exact_mod_cast hN
  have h5 : 2 * (N : ℝ) * η ≤ 2 * N' * η := by nlinarith
  refine add_le_add ((mul_le_mul_of_nonneg_left hP (by linarith)).trans (mul_le_mul_of_nonneg_right (by linarith) hP')) ?_
  exact mul_le_mul h5 h2 (by positivity) (by positivity)

theorem sumErr_nonneg (hu0 : 0 ≤ u) (hη0 : 0 ≤ η) (N : Nat) {P : ℝ} (hP : 0 ≤ P) : 0 ≤ sumErr u η N P := by
  unfold sumErr
  have h3 : 1 ≤ (1 + u) ^ (N + 1) := one_le_pow₀ (by linarith)
  have := mul_nonneg (sub_nonneg.2 h3) hP
  positivity

theorem scanItems_ok {n : Nat} (hn : n ≤ 63) (m : U64 → Cx F) :
    scanItems n m = .ok ((List.range (2 ^ n)).map fun i => (squaredC (m (BitVec.ofNat 64 i)) : F)) := by
  unfold scanItems
  refine mapM_each_ok fun i hi => ?_
  unfold readSqF
  rw [readAt_ok (by rw [toNat_ofNat_pow hn (List.mem_range.1 hi)]; exact List.mem_range.1 hi)]
  rfl

theorem stackedProbF_iff {n : Nat} (hn : n ≤ 63) (m : U64 → Cx F) (s : List F) :
    StackedProbF n m s ↔ ScanTable ((List.range (2 ^ n)).map fun i => (squaredC (m (BitVec.ofNat 64 i)) : F)) s := by
  unfold StackedProbF
  rw [scanItems_ok hn]
  constructor
  · rintro ⟨xs, h1, h2⟩; cases h1; exact h2
  · exact fun h => ⟨_, rfl, h⟩

theorem hostStackedProbF_iff {n : Nat} (hn : n ≤ 63) (m : U64 → Cx F) (s : List F) :
    HostStackedProbF n m s ↔ BlockTable ((List.range (2 ^ n)).map fun i => (squaredC (m (BitVec.ofNat 64 i)) : F)) s := by
  unfold HostStackedProbF
  rw [scanItems_ok hn]
  constructor
  · rintro ⟨xs, h1, h2⟩; cases h1; exact h2
  · exact fun h => ⟨_, rfl, h⟩

/-- the table of a state vector -/
theorem near_table (A : Accurate lib val u w η Ω) (Z : AddZero val Ω) (hu : u ≤ 1 / 64) (hη : η ≤ 1 / 64) {n : Nat} (hn : n ≤ 63) {m : U64 → Cx F}
    (hm : ∀ j : U64, j.toNat < 2 ^ n → ‖⟪m j⟫‖ ≤ 4) {P : ℝ} (hP : P = normSq (2 ^ n) fun j => ⟪m j⟫)
    (hΩ : ((1 : ℝ) + u) ^ (2 ^ n + 2) * (P + 2 * ((2 ^ n : ℕ) : ℝ) * η) ≤ Ω) {s : List F} (hs : StackedProbF n m s) :
    NearTable val Ω s (2 ^ n) (cumProb fun j => ⟪m j⟫) (sumErr u η (2 ^ n) P) := by
  have hu0 := A.u_nonneg
  have hη0 := A.eta_nonneg
  obtain ⟨hl, h0, hstep⟩ := (stackedProbF_iff hn m s).1 hs
  rw [List.length_map, List.length_range] at hl
  have hP0 : 0 ≤ P := hP ▸ Finset.sum_nonneg fun _ _ => Complex.normSq_nonneg _
  have hall : cumProb (fun j => ⟪m j⟫) (2 ^ n) = P := by rw [cumProb_all hn, hP]
  have hnear : ∀ i x, s[i + 1]? = some x → i < 2 ^ n ∧ |val x - cumProb (fun j => ⟪m j⟫) (i + 1)| ≤ sumErr u η (2 ^ n) P := by
    intro i x hx
    have hi : i < 2 ^ n := by
      have := (List.getElem?_eq_some_iff.1 hx).1
      omega
    refine ⟨hi, ?_⟩
    have hle : cumProb (fun j => ⟪m j⟫) (i + 1) ≤ P := hall ▸ cumProb_mono _ (show i + 1 ≤ 2 ^ n from hi)
    have hN : ((i + 1 : ℕ) : ℝ) ≤ ((2 ^ n : ℕ) : ℝ) := by exact_mod_cast hi
    have hr := hstep i x hx
    rw [List.map_take.symm, List.take_range, min_eq_left (show i + 1 ≤ 2 ^ n from hi)] at hr
    have hok : ∀ j, j < i + 1 → readSq (2 ^ n) (fun j => ⟪m j⟫) (BitVec.ofNat 64 j) = .ok (Complex.normSq ⟪m (BitVec.ofNat 64 j)⟫) := by
      intro j hj
      unfold readSq
      rw [readAt_ok (by rw [toNat_ofNat_pow hn (by omega)]; omega)]
      rfl
    have hsum : reduceSum (i + 1) (fun j => readSq (2 ^ n) (fun j => ⟪m j⟫) (id j)) = .ok (cumProb (fun j => ⟪m j⟫) (i + 1)) := by
      show reduceSum (i + 1) (fun j => readSq (2 ^ n) (fun j => ⟪m j⟫) j) = _
      rw [reduceSum_ok hok]
      rfl
    have hbound : ((1 : ℝ) + u) ^ (i + 1 + 2) * (cumProb (fun j => ⟪m j⟫) (i + 1) + 2 * ((i + 1 : ℕ) : ℝ) * η) ≤ Ω := by
      refine le_trans (mul_le_mul (pow_le_pow_right₀ (by linarith) (by omega)) (add_le_add hle ?_) ?_ (by positivity)) hΩ
      · exact mul_le_mul_of_nonneg_right (by linarith) hη0
      · have := cumProb_nonneg (fun j => ⟪m j⟫) (i + 1)
        positivity
    obtain ⟨y, e, -, hy⟩ := (squared_reduction A Z hu hη (by omega) hm hsum hbound (.ok x)).1
      ((rangeReduction_ok (g := fun i => squaredC (m (BitVec.ofNat 64 i))) (fun j hj => by
        unfold readSqF
        rw [id, readAt_ok (by rw [toNat_ofNat_pow hn (by omega)]; omega)]
        rfl) _).2 ⟨x, rfl, hr⟩)
    cases e
    exact hy.trans (sumErr_mono hu0 hη0 hi hle hP0)
  refine ⟨hl, fun x hx => ?_, fun a b hab => cumProb_mono _ hab, by simp [cumProb], fun i x hx => (hnear i x hx).2, sumErr_nonneg hu0 hη0 _ hP0⟩
  obtain ⟨i, hi⟩ := List.mem_iff_getElem?.1 hx
  cases i with
  | zero =>
    rw [h0, Option.some.injEq] at hi
    rw [← hi, A.zero, abs_zero]
    exact le_trans (by norm_num) A.big
  | succ i =>
    obtain ⟨hlt, h⟩ := hnear i x hi
    have hle : cumProb (fun j => ⟪m j⟫) (i + 1) ≤ P := hall ▸ cumProb_mono _ (show i + 1 ≤ 2 ^ n from hlt)
    have hge := cumProb_nonneg (fun j => ⟪m j⟫) (i + 1)
    have hb : P + sumErr u η (2 ^ n) P ≤ Ω := by
      refine le_trans ?_ hΩ
      unfold sumErr
      have h1 : (1 + u) ^ (2 ^ n + 1) ≤ (1 + u) ^ (2 ^ n + 2) := pow_le_pow_right₀ (by linarith) (by omega)
      have h2 : (1 + u) ^ (2 ^ n) ≤ (1 + u) ^ (2 ^ n + 2) := pow_le_pow_right₀ (by linarith) (by omega)
      have h3 := mul_le_mul_of_nonneg_right h1 hP0
      have h4 := mul_le_mul_of_nonneg_left h2 (show 0 ≤ 2 * ((2 ^ n : ℕ) : ℝ) * η by positivity)
      nlinarith
    rw [abs_le] at h ⊢
    have : 0 ≤ sumErr u η (2 ^ n) P := sumErr_nonneg hu0 hη0 _ hP0
    constructor <;> linarith [h.1, h.2]

/-- the table of a density matrix -/
theorem near_table_density (A : Accurate lib val u w η Ω) (Z : AddZero val Ω) {n : Nat} {ρ : U64 × U64 → Cx F}
    (hpos : ∀ i, i < 2 ^ n → 0 ≤ val (ρ (BitVec.ofNat 64 i, BitVec.ofNat 64 i)).re) {P : ℝ}
    (hP : P = ∑ i ∈ Finset.range (2 ^ n), val (ρ (BitVec.ofNat 64 i, BitVec.ofNat 64 i)).re) (hΩ : ((1 : ℝ) + u) ^ (2 ^ n) * P ≤ Ω) {s : List F}
    (hs : DMStackedProbF n ρ s) :
    NearTable val Ω s (2 ^ n) (fun k => ∑ i ∈ Finset.range k, max 0 (val (ρ (BitVec.ofNat 64 i, BitVec.ofNat 64 i)).re))
      (((1 + u) ^ (2 ^ n) - 1) * P) := by
  have hu0 := A.u_nonneg
  have h1u : (1 : ℝ) ≤ 1 + u := by linarith
  obtain ⟨hl, h0, hstep⟩ := hs
  rw [List.length_map, List.length_range] at hl
  have hmono : Monotone fun k => ∑ i ∈ Finset.range k, max 0 (val (ρ (BitVec.ofNat 64 i, BitVec.ofNat 64 i)).re) := by
    intro a b hab
    exact Finset.sum_le_sum_of_subset_of_nonneg (Finset.range_mono hab) fun _ _ _ => le_max_left _ _
  have hall : ∑ i ∈ Finset.range (2 ^ n), max 0 (val (ρ (BitVec.ofNat 64 i, BitVec.ofNat 64 i)).re) = P := by
    rw [hP]
    exact Finset.sum_congr rfl fun i hi => max_eq_right (hpos i (Finset.mem_range.1 hi))
  have hP0 : 0 ≤ P := hall ▸ Finset.sum_nonneg fun _ _ => le_max_left _ _
  have hp1 : (1 : ℝ) ≤ (1 + u) ^ (2 ^ n) := one_le_pow₀ h1u
  have hnear : ∀ i x, s[i + 1]? = some x → i < 2 ^ n ∧
      |val x - ∑ i ∈ Finset.range (i + 1), max 0 (val (ρ (BitVec.ofNat 64 i, BitVec.ofNat 64 i)).re)| ≤ ((1 + u) ^ (2 ^ n) - 1) * P := by
    intro i x hx
    have hi : i < 2 ^ n := by
      have := (List.getElem?_eq_some_iff.1 hx).1
      omega
    refine ⟨hi, ?_⟩
    have hr := hstep i x hx
    rw [List.map_take.symm, List.take_range, min_eq_left (show i + 1 ≤ 2 ^ n from hi)] at hr
    have hsum : (((List.range (i + 1)).map fun i => (Cplx.re (ρ (BitVec.ofNat 64 i, BitVec.ofNat 64 i)) : F)).map val).sum =
        ∑ i ∈ Finset.range (i + 1), max 0 (val (ρ (BitVec.ofNat 64 i, BitVec.ofNat 64 i)).re) := by
      rw [List.map_map, sum_map_range]
      refine Finset.sum_congr rfl fun j hj => (max_eq_right (hpos j ?_)).symm
      have := Finset.mem_range.1 hj
      omega
    have habs : absSum val ((List.range (i + 1)).map fun i => (Cplx.re (ρ (BitVec.ofNat 64 i, BitVec.ofNat 64 i)) : F)) =
        ∑ i ∈ Finset.range (i + 1), max 0 (val (ρ (BitVec.ofNat 64 i, BitVec.ofNat 64 i)).re) := by
      rw [absSum, List.map_map, sum_map_range]
      refine Finset.sum_congr rfl fun j hj => ?_
      have hj := hpos j (by have := Finset.mem_range.1 hj; omega)
      rw [max_eq_right hj]
      exact abs_of_nonneg hj
    have hle : ∑ i ∈ Finset.range (i + 1), max 0 (val (ρ (BitVec.ofNat 64 i, BitVec.ofNat 64 i)).re) ≤ P := hall ▸ hmono (show i + 1 ≤ 2 ^ n from hi)
    have hge : 0 ≤ ∑ i ∈ Finset.range (i + 1), max 0 (val (ρ (BitVec.ofNat 64 i, BitVec.ofNat 64 i)).re) := Finset.sum_nonneg fun _ _ => le_max_left _ _
    have h := reducesTo_err A Z hr (by
      rw [habs, List.length_map, List.length_range]
      exact (mul_le_mul (pow_le_pow_right₀ h1u hi) hle hge (by positivity)).trans hΩ)
    rw [hsum, habs, List.length_map, List.length_range] at h
    refine h.trans (mul_le_mul ?_ hle hge (by linarith))
    exact sub_le_sub_right (pow_le_pow_right₀ h1u (by omega)) 1
  refine ⟨hl, fun x hx => ?_, hmono, by simp, fun i x hx => (hnear i x hx).2, mul_nonneg (by linarith) hP0⟩
  obtain ⟨i, hi⟩ := List.mem_iff_getElem?.1 hx
  cases i with
  | zero =>
    rw [h0, Option.some.injEq] at hi
    rw [← hi, A.zero, abs_zero]
    exact le_trans (by norm_num) A.big
  | succ i =>
    obtain ⟨hlt, h⟩ := hnear i x hi
    have hle : ∑ i ∈ Finset.range (i + 1), max 0 (val (ρ (BitVec.ofNat 64 i, BitVec.ofNat 64 i)).re) ≤ P := hall ▸ hmono (show i + 1 ≤ 2 ^ n from hlt)
    have hge : 0 ≤ ∑ i ∈ Finset.range (i + 1), max 0 (val (ρ (BitVec.ofNat 64 i, BitVec.ofNat 64 i)).re) := Finset.sum_nonneg fun _ _ => le_max_left _ _
    rw [abs_le] at h ⊢
    have : 0 ≤ ((1 + u) ^ (2 ^ n) - 1) * P := mul_nonneg (by linarith) hP0
    constructor <;> nlinarith [h.1, h.2]

/-- an amplitude that is zero contributes zero -/
theorem squaredC_zero (A : Accurate lib val u w η Ω) (Z : AddZero val Ω) {z : Cx F} (hz : ⟪z⟫ = 0) : val (squaredC z : F) = 0 := by
  have h1 : val z.re = 0 := congrArg Complex.re hz
  have h2 : val z.im = 0 := congrArg Complex.im hz
  have e1 : val (z.re * z.re) = 0 := A.mul_zero _ _ (.inl h1) (by rw [h1]; norm_num) (by rw [h1]; norm_num)
  have e2 : val (z.im * z.im) = 0 := A.mul_zero _ _ (.inl h2) (by rw [h2]; norm_num) (by rw [h2]; norm_num)
  show val (z.re * z.re + z.im * z.im) = 0
  rw [Z.right _ _ e2, e1]
  rw [e1, abs_zero]
  exact le_trans (by norm_num) A.big

/-- the conversion of the numbers drawn -/
theorem cast_near (A : Accurate lib val u w η Ω) {r : ℝ} (h0 : 0 ≤ r) (h1 : r < 1) : |val (lib.cast r) - r| ≤ u + η := by
  have hu0 := A.u_nonneg
  refine (A.cast r (by rw [abs_of_nonneg h0]; linarith)).trans ?_
  rw [abs_of_nonneg h0]
  nlinarith

end

end Verif.Proofs
