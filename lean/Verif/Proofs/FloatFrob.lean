import Verif.Spec.Frobenius
import Verif.Proofs.FloatGate
import Verif.Proofs.Vec

/-! # The Frobenius norm of density matrices -/

namespace Verif.Proofs
open Verif Verif.Spec Verif.Model
attribute [-simp] BitVec.getLsbD_eq_getElem

/-- a matrix as an element of a Euclidean space -/
noncomputable def mvec (n : Nat) (M : U64 × U64 → ℂ) : EuclideanSpace ℂ (Fin (2 ^ n) × Fin (2 ^ n)) :=
  WithLp.toLp 2 fun i => M (BitVec.ofNat 64 i.1.val, BitVec.ofNat 64 i.2.val)

theorem frob_mvec (n : Nat) (M : U64 × U64 → ℂ) : frob (2 ^ n) M = ‖mvec n M‖ := by
  rw [EuclideanSpace.norm_eq, Fintype.sum_prod_type]
  unfold frob mvec
  congr 1
  rw [Finset.sum_range]
  refine Finset.sum_congr rfl fun r _ => ?_
  rw [Finset.sum_range]

theorem frob_nonneg (dim : Nat) (M : U64 × U64 → ℂ) : 0 ≤ frob dim M := Real.sqrt_nonneg _

theorem mvec_add (n : Nat) (M N : U64 × U64 → ℂ) : mvec n (fun p => M p + N p) = mvec n M + mvec n N := rfl

theorem frob_add (n : Nat) (M N : U64 × U64 → ℂ) : frob (2 ^ n) (fun p => M p + N p) ≤ frob (2 ^ n) M + frob (2 ^ n) N := by
  rw [frob_mvec, frob_mvec, frob_mvec, mvec_add]
  exact norm_add_le _ _

theorem frob_congr {n : Nat} (hn : n ≤ 63) {M N : U64 × U64 → ℂ} (h : ∀ p, InMat (2 ^ n) p → M p = N p) :
    frob (2 ^ n) M = frob (2 ^ n) N := by
  rw [frob_mvec, frob_mvec]
  congr 1
  unfold mvec
  congr 1
  funext i
  have k : ∀ j : Fin (2 ^ n), (BitVec.ofNat 64 j.val).toNat < 2 ^ n := by
    intro j
    rw [Verif.toNat_ofNat_lt (show j.val < 2 ^ 64 from lt_of_lt_of_le j.isLt (pow64 hn))]
    exact j.isLt
  exact h _ ⟨k _, k _⟩

theorem range_indices {dim : Nat} (hd : dim ≤ 2 ^ 64) (f : U64 → ℝ) :
    ∑ j ∈ Finset.range dim, f (BitVec.ofNat 64 j) = ∑ j ∈ indices dim, f j := by
  unfold indices
  rw [Finset.sum_image]
  intro a ha b hb e
  simp only [Finset.coe_range, Set.mem_Iio] at ha hb
  have := congrArg BitVec.toNat e
  rwa [Verif.toNat_ofNat_lt (show a < 2 ^ 64 by omega), Verif.toNat_ofNat_lt (show b < 2 ^ 64 by omega)] at this

theorem frob_sq {dim : Nat} (hd : dim ≤ 2 ^ 64) (M : U64 × U64 → ℂ) :
    frob dim M ^ 2 = ∑ r ∈ indices dim, ∑ c ∈ indices dim, ‖M (r, c)‖ ^ 2 := by
  unfold frob
  rw [Real.sq_sqrt (by positivity), range_indices hd (fun r => ∑ c ∈ Finset.range dim, ‖M (r, BitVec.ofNat 64 c)‖ ^ 2)]
  exact Finset.sum_congr rfl fun r _ => range_indices hd (fun c => ‖M (r, c)‖ ^ 2)

theorem frob_rows {dim : Nat} (hd : dim ≤ 2 ^ 64) (M : U64 × U64 → ℂ) :
    frob dim M ^ 2 = ∑ r ∈ indices dim, normSq dim (fun c => M (r, c)) := by
  rw [frob_sq hd]
  exact Finset.sum_congr rfl fun r _ => (normSq_norm _ _).symm

theorem frob_cols {dim : Nat} (hd : dim ≤ 2 ^ 64) (M : U64 × U64 → ℂ) :
    frob dim M ^ 2 = ∑ c ∈ indices dim, normSq dim (fun r => M (r, c)) := by
  rw [frob_sq hd, Finset.sum_comm]
  exact Finset.sum_congr rfl fun r _ => (normSq_norm _ _).symm

theorem cell_le_frob {dim : Nat} (hd : dim ≤ 2 ^ 64) (M : U64 × U64 → ℂ) {p : U64 × U64} (hp : InMat dim p) : ‖M p‖ ≤ frob dim M := by
  have h1 := frob_sq hd M
  have h2 : ‖M p‖ ^ 2 ≤ frob dim M ^ 2 := by
    rw [h1]
    refine le_trans ?_ (Finset.single_le_sum (f := fun r => ∑ c ∈ indices dim, ‖M (r, c)‖ ^ 2) (fun _ _ => by positivity)
      ((mem_indices hd).2 hp.1))
    exact Finset.single_le_sum (f := fun c => ‖M (p.1, c)‖ ^ 2) (fun _ _ => by positivity) ((mem_indices hd).2 hp.2)
  exact (sq_le_sq₀ (norm_nonneg _) (frob_nonneg _ _)).1 h2

/-- a bound for every column (or row) gives a bound for the matrix -/
theorem frob_lines {dim : Nat} {ε η : ℝ} (hε : 0 ≤ ε) (hη : 0 ≤ η) {D N : ℝ} {d m : U64 → ℝ}
    (hd0 : ∀ j, 0 ≤ d j) (hm0 : ∀ j, 0 ≤ m j) (hD : D ^ 2 = ∑ j ∈ indices dim, d j) (hN : N ^ 2 = ∑ j ∈ indices dim, m j)
    (hN0 : 0 ≤ N) (h : ∀ j ∈ indices dim, √(d j) ≤ 256 * (ε * √(m j) + η * √(dim : ℝ))) :
    D ≤ 512 * (ε * N + η * dim) := by
  have key : D ^ 2 ≤ (512 * ε) ^ 2 * N ^ 2 + (512 * η) ^ 2 * (dim : ℝ) ^ 2 := by
    rw [hD, hN, Finset.mul_sum]
    have h1 : ∀ j ∈ indices dim, d j ≤ (512 * ε) ^ 2 * m j + (512 * η) ^ 2 * dim := by
      intro j hj
      have a := pow_le_pow_left₀ (Real.sqrt_nonneg _) (h j hj) 2
      rw [Real.sq_sqrt (hd0 j)] at a
      have b := Real.sq_sqrt (hm0 j)
      have c := Real.sq_sqrt (Nat.cast_nonneg (α := ℝ) dim)
      have e := sq_nonneg (ε * √(m j) - η * √(dim : ℝ))
      have e2 := sq_nonneg (ε * √(m j))
      have e3 := sq_nonneg (η * √(dim : ℝ))
      nlinarith
    refine le_trans (Finset.sum_le_sum h1) ?_
    rw [Finset.sum_add_distrib, Finset.sum_const, nsmul_eq_mul]
    have : ((indices dim).card : ℝ) ≤ dim := by exact_mod_cast card_indices'
    have q : 0 ≤ (512 * η) ^ 2 * (dim : ℝ) := by positivity
    nlinarith
  have hp : 0 ≤ 512 * (ε * N + η * dim) := by positivity
  refine abs_le_of_sq_le_sq' ?_ hp |>.2
  have : 0 ≤ (512 * ε * N) * (512 * η * dim) := by positivity
  nlinarith

/-- operators that do not increase the norm, applied to every column -/
theorem frob_cols_le {n : Nat} (hn : n ≤ 63) {G : (U64 → ℂ) → U64 → ℂ} (hG : ∀ ψ, normSq (2 ^ n) (G ψ) ≤ normSq (2 ^ n) ψ) (M : U64 × U64 → ℂ) :
    frob (2 ^ n) (fun p => G (fun r => M (r, p.2)) p.1) ≤ frob (2 ^ n) M := by
  refine abs_le_of_sq_le_sq' ?_ (frob_nonneg _ _) |>.2
  rw [frob_cols (pow64 hn), frob_cols (pow64 hn)]
  exact Finset.sum_le_sum fun c _ => hG fun r => M (r, c)

theorem frob_rows_le {n : Nat} (hn : n ≤ 63) {G : (U64 → ℂ) → U64 → ℂ} (hG : ∀ ψ, normSq (2 ^ n) (G ψ) ≤ normSq (2 ^ n) ψ) (M : U64 × U64 → ℂ) :
    frob (2 ^ n) (fun p => G (fun c => M (p.1, c)) p.2) ≤ frob (2 ^ n) M := by
  refine abs_le_of_sq_le_sq' ?_ (frob_nonneg _ _) |>.2
  rw [frob_rows (pow64 hn), frob_rows (pow64 hn)]
  exact Finset.sum_le_sum fun r _ => hG fun c => M (r, c)

end Verif.Proofs
