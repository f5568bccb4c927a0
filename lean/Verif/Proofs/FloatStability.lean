import Verif.Proofs.FloatCircuit
import Verif.Proofs.FloatExpect
import Verif.Proofs.Vec

/-! # How probabilities and expectation values depend on the state -/

namespace Verif.Proofs
open Verif Verif.Spec Verif.Model
attribute [-simp] BitVec.getLsbD_eq_getElem

/-- the difference of two squared norms -/
theorem sq_norm_diff {V : Type} [SeminormedAddCommGroup V] (x y : V) : |‖x‖ ^ 2 - ‖y‖ ^ 2| ≤ ‖x - y‖ * (‖x‖ + ‖y‖) := by
  have e : ‖x‖ ^ 2 - ‖y‖ ^ 2 = (‖x‖ - ‖y‖) * (‖x‖ + ‖y‖) := by ring
  rw [e, abs_mul, abs_of_nonneg (show 0 ≤ ‖x‖ + ‖y‖ by positivity)]
  exact mul_le_mul_of_nonneg_right (abs_norm_sub_norm_le x y) (by positivity)

open Classical in
/-- probabilities of sets of indices -/
theorem prob_diff {n : Nat} (hn : n ≤ 63) (ψ φ : U64 → ℂ) (p : U64 → Prop) :
    |(∑ j ∈ indices (2 ^ n), if p j then Complex.normSq (ψ j) else 0) - ∑ j ∈ indices (2 ^ n), if p j then Complex.normSq (φ j) else 0| ≤
      ‖vec n ψ - vec n φ‖ * (‖vec n ψ‖ + ‖vec n φ‖) := by
  have hmask : ∀ χ : U64 → ℂ, (∑ j ∈ indices (2 ^ n), if p j then Complex.normSq (χ j) else 0) =
      ‖vec n fun j => if p j then χ j else 0‖ ^ 2 := by
    intro χ
    rw [← normSq_vec hn]
    unfold normSq
    refine Finset.sum_congr rfl fun j _ => ?_
    by_cases h : p j <;> simp [h]
  have hle : ∀ χ : U64 → ℂ, ‖vec n fun j => if p j then χ j else 0‖ ≤ ‖vec n χ‖ := by
    intro χ
    refine abs_le_of_sq_le_sq' ?_ (norm_nonneg _) |>.2
    rw [← hmask, ← normSq_vec hn]
    refine Finset.sum_le_sum fun j _ => ?_
    split
    · exact le_rfl
    · exact Complex.normSq_nonneg _
  rw [hmask, hmask]
  refine (sq_norm_diff _ _).trans ?_
  refine mul_le_mul ?_ (add_le_add (hle ψ) (hle φ)) (by positivity) (norm_nonneg _)
  rw [← vec_sub, ← vec_sub]
  have e : (fun j => (if p j then ψ j else 0) - if p j then φ j else 0) = fun j => if p j then ψ j - φ j else 0 := by
    funext j; split <;> simp
  rw [e]
  exact hle _

/-- the norm of a sum of Pauli operators with any coefficients -/
theorem vec_opAct_le {n : Nat} (hn : n ≤ 63) {ts : List PauliOp} (hx : ∀ p ∈ ts, p.x.toNat < 2 ^ n) (ψ : U64 → ℂ) :
    ‖vec n (OpAct ts ψ)‖ ≤ (ts.map fun p => ‖p.coef‖).sum * ‖vec n ψ‖ := by
  induction ts with
  | nil =>
    have : OpAct [] ψ = fun _ => 0 := by funext j; simp [OpAct]
    rw [this, vec_zero]; simp
  | cons p ts ih =>
    have e : OpAct (p :: ts) ψ = fun j => PauliAct p ψ j + OpAct ts ψ j := by
      funext j; unfold OpAct; rw [List.map_cons, List.sum_cons]
    rw [e, vec_add, List.map_cons, List.sum_cons, add_mul]
    refine le_trans (norm_add_le _ _) (add_le_add (le_of_eq ?_) (ih (fun q hq => hx q (List.mem_cons_of_mem _ hq))))
    have h1 := normSq_pauliAct hn (hx p List.mem_cons_self) ψ
    rw [normSq_vec hn, normSq_vec hn, Complex.normSq_eq_norm_sq, ← mul_pow] at h1
    exact (pow_left_inj₀ (norm_nonneg _) (mul_nonneg (norm_nonneg _) (norm_nonneg _)) (by norm_num)).1 h1

theorem opAct_sub (ts : List PauliOp) (ψ φ : U64 → ℂ) : OpAct ts (fun k => ψ k - φ k) = fun j => OpAct ts ψ j - OpAct ts φ j := by
  have h := opAct_add ts (fun k => ψ k - φ k) φ
  funext j
  have := congrFun h j
  simp only [sub_add_cancel] at this
  rw [this]; ring

/-- expectation values -/
theorem expect_diff {n : Nat} (hn : n ≤ 63) {ts : List PauliOp} (hx : ∀ p ∈ ts, p.x.toNat < 2 ^ n) (ψ φ : U64 → ℂ) :
    ‖Spec.inner (2 ^ n) ψ (OpAct ts ψ) - Spec.inner (2 ^ n) φ (OpAct ts φ)‖ ≤
      (ts.map fun p => ‖p.coef‖).sum * (‖vec n ψ - vec n φ‖ * (‖vec n ψ‖ + ‖vec n φ‖)) := by
  rw [inner_vec hn, inner_vec hn]
  have e : Inner.inner ℂ (vec n ψ) (vec n (OpAct ts ψ)) - Inner.inner ℂ (vec n φ) (vec n (OpAct ts φ)) =
      Inner.inner ℂ (vec n ψ) (vec n (OpAct ts ψ) - vec n (OpAct ts φ)) + Inner.inner ℂ (vec n ψ - vec n φ) (vec n (OpAct ts φ)) := by
    rw [inner_sub_right, inner_sub_left]; ring
  have h1 : ‖vec n (OpAct ts ψ) - vec n (OpAct ts φ)‖ ≤ (ts.map fun p => ‖p.coef‖).sum * ‖vec n ψ - vec n φ‖ := by
    rw [← vec_sub, ← vec_sub, ← opAct_sub]
    exact vec_opAct_le hn hx _
  have h2 := vec_opAct_le hn hx φ
  rw [e]
  refine (norm_add_le _ _).trans ((add_le_add (norm_inner_le_norm _ _) (norm_inner_le_norm _ _)).trans ?_)
  have := mul_le_mul_of_nonneg_left h1 (norm_nonneg (vec n ψ))
  have := mul_le_mul_of_nonneg_left h2 (norm_nonneg (vec n ψ - vec n φ))
  linarith

end Verif.Proofs
