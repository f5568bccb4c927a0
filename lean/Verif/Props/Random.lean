import Verif.Proofs.Permutation
import Verif.Proofs.Uniform
import Mathlib.Analysis.Complex.Exponential
import Mathlib.Data.Nat.Factorial.BigOperators

/-! # C53, C73: `Random::permutation` -/

namespace Verif.Props
open Verif Verif.Model Verif.Proofs Verif.Spec

/-- **C53.** Whatever the engine delivers, the result is a rearrangement of `0, …, n-1`. -/
theorem C53_permutation (mt : Nat → Nat) (n : Nat) : ∃ p, permutation mt n = .ok p ∧ p.Perm (List.range n) := by
  obtain ⟨w, h1, h2, -⟩ := shuffle_perm (mt := mt) (m := n) (k := 0) (v := List.range n) (by simp)
  exact ⟨w, h1, h2⟩

/-- **C53.** Every rearrangement is the result for some outputs of the engine.  Missing: `n ≥ 2^32`, where it is false
(`C53_counterexample`). -/
theorem C53_reachable_partial {n : Nat} (hn : n < 2 ^ 32) {p : List Nat} (hp : p.Perm (List.range n)) :
    ∃ mt : Nat → Nat, (∀ k, mt k < 2 ^ 64) ∧ permutation mt n = .ok p := by
  refine shuffle_reach List.nodup_range hp (by simp) (by omega) fun x hx => ?_
  rw [List.getElem?_eq_none (by rw [hp.length_eq]; simpa using hx), List.getElem?_eq_none (by simpa using hx)]

/-- **C53 (counterexample).** `int32()` never returns `2^32-1`, so for `n ≥ 2^32` the last entry is never `n-1`; the identity, for example,
is unreachable. -/
theorem C53_counterexample {n : Nat} (hn : 2 ^ 32 ≤ n) (mt : Nat → Nat) : permutation mt n ≠ .ok (List.range n) := by
  intro h
  obtain ⟨i, rfl⟩ : ∃ i, n = i + 1 := ⟨n - 1, by omega⟩
  obtain ⟨w, h1, h2, h3, h4⟩ := shuffle_step (mt := mt) (i := i) (k := 0) (v := List.range (i + 1)) (by simp)
  obtain ⟨u, hu, -, hx⟩ := shuffle_perm (mt := mt) (m := i) (k := 1) (v := w) (by rw [h2]; simp)
  unfold permutation at h
  rw [h1] at h
  have e : u = List.range (i + 1) := by
    have := hu.symm.trans h
    exact Except.ok.inj this
  have hlast := hx i le_rfl
  have hlt : int32 (mt 0) < i := by
    unfold int32
    have := Nat.mod_lt (mt 0) (show 0 < 2 ^ 32 - 1 by norm_num)
    omega
  rw [e, h4 i (by simp), Nat.mod_eq_of_lt (by omega), if_neg (by omega), if_pos rfl, List.getElem?_range (by omega),
    List.getElem?_range (by omega)] at hlast
  have := Option.some.inj hlast
  omega

example : [2, 0, 1].Perm (List.range 3) := by decide
example : permutation (fun k => 7 * k + 4) 5 = .ok [2, 1, 0, 3, 4] := by decide

/-! ## C73 -/

theorem chance_eq {K n : Nat} (p : List Nat) : chance (fun x : Fin n → Fin K => permutation (drawn x) n = .ok p) =
    (ways K n (List.range n) p : ℝ) / (K : ℝ) ^ n := by
  unfold chance ways permutation
  congr 3
  apply Finset.filter_congr_decidable

/-- **C73.** If the engine delivers independent uniform 64-bit numbers, every rearrangement of `n ≤ 2^31` elements is returned with a
probability between `∏ (1 - i / 2^32) / n!` and `∏ (1 + i / 2^32) / n!`, `i = 1, …, n`. -/
theorem C73_nearly_uniform {n : Nat} (hn : n ≤ 2 ^ 31) {p : List Nat} (hp : p.Perm (List.range n)) :
    (∏ i ∈ Finset.range n, (1 - ((i : ℝ) + 1) / 2 ^ 32)) / n.factorial ≤ chance (fun x : Fin n → Fin (2 ^ 64) => permutation (drawn x) n = .ok p) ∧
    chance (fun x : Fin n → Fin (2 ^ 64) => permutation (drawn x) n = .ok p) ≤
      (∏ i ∈ Finset.range n, (1 + ((i : ℝ) + 1) / 2 ^ 32)) / n.factorial := by
  obtain ⟨j, hj, -, hw⟩ := ways_eq (K := 2 ^ 64) (m := n) (v := List.range n) List.nodup_range hp (by simp) fun x hx => by
    rw [List.getElem?_eq_none (by rw [hp.length_eq]; simpa using hx), List.getElem?_eq_none (by simpa using hx)]
  have hK : (0 : ℝ) < ((2 ^ 64 : ℕ) : ℝ) ^ n := by positivity
  have hprod : ∏ i ∈ Finset.range n, ((2 : ℝ) ^ 64 / ((i : ℝ) + 1)) = ((2 ^ 64 : ℕ) : ℝ) ^ n / n.factorial := by
    rw [Finset.prod_div_distrib, Finset.prod_const, Finset.card_range, ← Finset.prod_range_add_one_eq_factorial]
    congr 1
    · push_cast; norm_num
    · push_cast; rfl
  have hf : (0 : ℝ) < n.factorial := by exact_mod_cast Nat.factorial_pos n
  rw [chance_eq, hw, le_div_iff₀ hK, div_le_iff₀ hK, div_mul_eq_mul_div, mul_div_assoc, div_mul_eq_mul_div, mul_div_assoc, ← hprod,
    ← Finset.prod_mul_distrib, ← Finset.prod_mul_distrib]
  push_cast
  have hb : ∀ i ∈ Finset.range n, _ := fun i hi => drawHits_bounds (i := i) (j := j i) (by have := Finset.mem_range.1 hi; omega)
    (hj i (Finset.mem_range.1 hi))
  refine ⟨Finset.prod_le_prod (fun i hi => ?_) fun i hi => (hb i hi).1, Finset.prod_le_prod (fun i _ => Nat.cast_nonneg _) fun i hi => (hb i hi).2⟩
  have : (i : ℝ) + 1 ≤ 2 ^ 31 := by exact_mod_cast (by have := Finset.mem_range.1 hi; omega : i + 1 ≤ 2 ^ 31)
  have : 0 ≤ 1 - ((i : ℝ) + 1) / 2 ^ 32 := by
    rw [sub_nonneg, div_le_one (by norm_num)]; linarith
  positivity

theorem one_sub_sum_le (f : Nat → ℝ) (n : Nat) (h0 : ∀ i, i < n → 0 ≤ f i) (h1 : ∀ i, i < n → f i ≤ 1) :
    1 - ∑ i ∈ Finset.range n, f i ≤ ∏ i ∈ Finset.range n, (1 - f i) := by
  induction n with
  | zero => simp
  | succ n ih =>
    rw [Finset.sum_range_succ, Finset.prod_range_succ]
    have ih := ih (fun i hi => h0 i (by omega)) (fun i hi => h1 i (by omega))
    have hp : ∏ i ∈ Finset.range n, (1 - f i) ≤ 1 :=
      Finset.prod_le_one (fun i hi => by have := h1 i (by have := Finset.mem_range.1 hi; omega); linarith)
        fun i hi => by have := h0 i (by have := Finset.mem_range.1 hi; omega); linarith
    have := h0 n (by omega)
    nlinarith

theorem sum_steps (n : Nat) : ∑ i ∈ Finset.range n, (((i : ℝ) + 1) / 2 ^ 32) = (n : ℝ) * (n + 1) / 2 / 2 ^ 32 := by
  induction n with
  | zero => simp
  | succ n ih => rw [Finset.sum_range_succ, ih]; push_cast; ring

/-- **C73, simple form.** For `n (n+1) ≤ 2^32` (up to 65535 elements) the probability of every rearrangement is `1/n!` up to a relative error
of `n (n+1) / 2^32`. -/
theorem C73_relative_error {n : Nat} (hn : n * (n + 1) ≤ 2 ^ 32) {p : List Nat} (hp : p.Perm (List.range n)) :
    |chance (fun x : Fin n → Fin (2 ^ 64) => permutation (drawn x) n = .ok p) * n.factorial - 1| ≤ (n : ℝ) * (n + 1) / 2 ^ 32 := by
  have hn' : n ≤ 2 ^ 31 := by by_contra h; nlinarith
  obtain ⟨h1, h2⟩ := C73_nearly_uniform hn' hp
  have hf : (0 : ℝ) < n.factorial := by exact_mod_cast Nat.factorial_pos n
  rw [div_le_iff₀ hf] at h1
  rw [le_div_iff₀ hf] at h2
  have hs := sum_steps n
  have hnn : (n : ℝ) * (n + 1) ≤ 2 ^ 32 := by exact_mod_cast hn
  have hn0 : (0 : ℝ) ≤ n * (n + 1) := by positivity
  have hl : 1 - ∑ i ∈ Finset.range n, (((i : ℝ) + 1) / 2 ^ 32) ≤ ∏ i ∈ Finset.range n, (1 - ((i : ℝ) + 1) / 2 ^ 32) := by
    refine one_sub_sum_le (fun i => ((i : ℝ) + 1) / 2 ^ 32) n ?_ ?_
    · intro i _; positivity
    · intro i hi
      have : (i : ℝ) + 1 ≤ 2 ^ 31 := by exact_mod_cast (by omega : i + 1 ≤ 2 ^ 31)
      rw [div_le_one (by norm_num)]; linarith
  have hu : ∏ i ∈ Finset.range n, (1 + ((i : ℝ) + 1) / 2 ^ 32) ≤ 1 + 2 * ∑ i ∈ Finset.range n, (((i : ℝ) + 1) / 2 ^ 32) := by
    have e1 : ∏ i ∈ Finset.range n, (1 + ((i : ℝ) + 1) / 2 ^ 32) ≤ Real.exp (∑ i ∈ Finset.range n, (((i : ℝ) + 1) / 2 ^ 32)) := by
      rw [Real.exp_sum]
      refine Finset.prod_le_prod (fun i _ => by positivity) fun i _ => ?_
      rw [add_comm]; exact Real.add_one_le_exp _
    have hS : ∑ i ∈ Finset.range n, (((i : ℝ) + 1) / 2 ^ 32) ≤ 1 := by rw [hs]; rw [div_le_one (by norm_num)]; linarith
    have hS0 : 0 ≤ ∑ i ∈ Finset.range n, (((i : ℝ) + 1) / 2 ^ 32) := Finset.sum_nonneg fun i _ => by positivity
    have e2 := Real.abs_exp_sub_one_le (x := ∑ i ∈ Finset.range n, (((i : ℝ) + 1) / 2 ^ 32)) (by rw [abs_of_nonneg hS0]; exact hS)
    rw [abs_of_nonneg hS0] at e2
    have := (abs_le.1 e2).2
    linarith
  rw [hs] at hl hu
  rw [abs_le]
  constructor
  · have : (n : ℝ) * (n + 1) / 2 / 2 ^ 32 ≤ n * (n + 1) / 2 ^ 32 := by
      rw [div_le_div_iff_of_pos_right (by norm_num)]; linarith
    linarith
  · have : 2 * ((n : ℝ) * (n + 1) / 2 / 2 ^ 32) = n * (n + 1) / 2 ^ 32 := by ring
    linarith

/-- **C73, bias.** The distribution is not uniform: of two elements, the identity is returned with probability less than one half, because
`int32()` has an odd number of values. -/
theorem C73_biased : chance (fun x : Fin 2 → Fin (2 ^ 64) => permutation (drawn x) 2 = .ok [0, 1]) < 1 / 2 ∧
    1 / 2 < chance (fun x : Fin 2 → Fin (2 ^ 64) => permutation (drawn x) 2 = .ok [1, 0]) := by
  have key : ∀ p : List Nat, p.Perm (List.range 2) → ∃ j, j ≤ 1 ∧ p[1]? = (List.range 2)[j]? ∧
      chance (fun x : Fin 2 → Fin (2 ^ 64) => permutation (drawn x) 2 = .ok p) = (drawHits (2 ^ 64) 1 j : ℝ) / 2 ^ 64 := by
    intro p hp
    obtain ⟨j, hj, hlast, hw⟩ := ways_eq (K := 2 ^ 64) (m := 2) (v := List.range 2) List.nodup_range hp (by simp) fun x hx => by
      rw [List.getElem?_eq_none (by rw [hp.length_eq]; simpa using hx), List.getElem?_eq_none (by simpa using hx)]
    have h0 : j 0 = 0 := by have := hj 0 (by omega); omega
    refine ⟨j 1, hj 1 (by omega), hlast 1 rfl, ?_⟩
    rw [chance_eq, hw, Finset.prod_range_succ, Finset.prod_range_one, h0, drawHits_eq (le_refl 0)]
    generalize drawHits (2 ^ 64) 1 (j 1) = t
    norm_num
    ring
  constructor
  · obtain ⟨j, hj, hl, hc⟩ := key [0, 1] (by decide)
    have : j = 1 := by
      rcases (show j = 0 ∨ j = 1 by omega) with rfl | rfl
      · simp [List.range_succ] at hl
      · rfl
    rw [hc, this, drawHits_eq le_rfl]
    norm_num
  · obtain ⟨j, hj, hl, hc⟩ := key [1, 0] (by decide)
    have : j = 0 := by
      rcases (show j = 0 ∨ j = 1 by omega) with rfl | rfl
      · rfl
      · simp [List.range_succ] at hl
    rw [hc, this, drawHits_eq (by norm_num)]
    norm_num

/-- three elements -/
example : |chance (fun x : Fin 3 → Fin (2 ^ 64) => permutation (drawn x) 3 = .ok [2, 0, 1]) * 6 - 1| ≤ 12 / 2 ^ 32 := by
  have := C73_relative_error (n := 3) (p := [2, 0, 1]) (by norm_num) (by decide)
  norm_num [Nat.factorial] at this ⊢
  exact this

end Verif.Props
