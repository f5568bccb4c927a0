import Verif.Model.FloatReduce
import Verif.Spec.Reduction
import Verif.Proofs.FloatError
import Verif.Proofs.StateVec
import Verif.Proofs.Operator

/-! # Reductions in floating-point arithmetic: exact case and rounding errors -/

namespace Verif.Proofs
open Verif Verif.Spec Verif.Model
attribute [-simp] BitVec.getLsbD_eq_getElem

/-! ## exact arithmetic -/

theorem reducesTo_exact {R : Type} [AddCommMonoid R] {l : List R} {r : R} : ReducesTo l r ↔ r = l.sum := by
  constructor
  · intro h
    induction h with
    | init => rfl
    | item x _ ih => rw [ih, List.sum_cons, add_comm]
    | join _ _ ih ih' => rw [ih, ih', List.sum_append]
    | perm hp _ ih => rw [ih, hp.sum_eq]
  · rintro rfl
    induction l with
    | nil => exact .init
    | cons x l ih => rw [List.sum_cons, add_comm]; exact .item x ih

theorem mapM_each_ok {α R : Type} {l : List α} {f : α → Res R} {g : α → R} (h : ∀ a ∈ l, f a = .ok (g a)) : l.mapM f = .ok (l.map g) := by
  induction l with
  | nil => rfl
  | cons a l ih =>
    rw [List.mapM_cons, h a List.mem_cons_self, ih fun b hb => h b (List.mem_cons_of_mem _ hb)]
    rfl

/-- outcomes of a reduction whose work items do not fail -/
theorem reduction_ok {α R : Type} [_root_.Zero R] [Add R] {l : List α} {f : α → Res R} {g : α → R} (h : ∀ a ∈ l, f a = .ok (g a)) (r : Res R) :
    Reduction l f r ↔ ∃ s, r = .ok s ∧ ReducesTo (l.map g) s := by
  cases r with
  | error e =>
    simp only [Reduction, reduceCtorEq, false_and, exists_false, iff_false]
    rintro ⟨a, ha, he⟩
    rw [h a ha] at he
    cases he
  | ok s =>
    simp only [Reduction, mapM_each_ok h, Except.ok.injEq]
    constructor
    · rintro ⟨xs, rfl, hs⟩; exact ⟨s, rfl, hs⟩
    · rintro ⟨_, rfl, hs⟩; exact ⟨_, rfl, hs⟩

theorem rangeReduction_exact {R : Type} [AddCommMonoid R] {N : Nat} {f : U64 → Res R} {g : Nat → R}
    (h : ∀ i, i < N → f (BitVec.ofNat 64 i) = .ok (g i)) (r : Res R) : RangeReduction N f r ↔ r = reduceSum N f := by
  unfold RangeReduction
  rw [reduction_ok (g := g) (fun a ha => h a (List.mem_range.1 ha)), reduceSum_ok h]
  have e : ((List.range N).map g).sum = ∑ i ∈ Finset.range N, g i := rfl
  constructor
  · rintro ⟨s, rfl, hs⟩
    rw [reducesTo_exact.1 hs, e]
  · rintro rfl
    exact ⟨_, rfl, reducesTo_exact.2 e.symm⟩

/-! ## rounding errors -/

/-- the sum of the magnitudes -/
def absSum {F : Type} (val : F → ℝ) (l : List F) : ℝ := (l.map fun x => |val x|).sum

theorem absSum_nonneg {F : Type} {val : F → ℝ} (l : List F) : 0 ≤ absSum val l := List.sum_nonneg (by simp)

theorem sum_le_absSum {F : Type} {val : F → ℝ} (l : List F) : |(l.map val).sum| ≤ absSum val l := by
  induction l with
  | nil => simp [absSum]
  | cons x l ih =>
    rw [List.map_cons, List.sum_cons]
    exact (abs_add_le _ _).trans (add_le_add le_rfl ih)

theorem add_step {u a b s t S T p q r : ℝ} (hu : 0 ≤ u) (hS : |s| ≤ S) (hT : |t| ≤ T) (hp : 1 ≤ p) (hq : 1 ≤ q)
    (ha : |a - s| ≤ (p - 1) * S) (hb : |b - t| ≤ (q - 1) * T) (hr : |r - (a + b)| ≤ u * |a + b|) {P : ℝ} (h1 : p * (1 + u) ≤ P)
    (h2 : q * (1 + u) ≤ P) : |r - (s + t)| ≤ (P - 1) * (S + T) := by
  have hS0 := (abs_nonneg _).trans hS
  have hT0 := (abs_nonneg _).trans hT
  have e1 : |a + b - (s + t)| ≤ (p - 1) * S + (q - 1) * T := by
    rw [show a + b - (s + t) = (a - s) + (b - t) by ring]
    exact (abs_add_le _ _).trans (add_le_add ha hb)
  have e2 : |a + b| ≤ p * S + q * T := by
    have : |a + b| ≤ |a + b - (s + t)| + |s + t| := by
      have := abs_add_le (a + b - (s + t)) (s + t); rwa [sub_add_cancel] at this
    have := abs_add_le s t
    nlinarith
  have e3 : |r - (s + t)| ≤ |r - (a + b)| + |a + b - (s + t)| := abs_sub_le _ _ _
  have e4 := mul_le_mul_of_nonneg_left e2 hu
  have e5 := mul_le_mul_of_nonneg_right h1 hS0
  have e6 := mul_le_mul_of_nonneg_right h2 hT0
  nlinarith

section
variable {F : Type} [_root_.Zero F] [One F] [Add F] [Sub F] [Mul F] [Neg F] {lib : FloatLib F} {val : F → ℝ} {u w η Ω : ℝ}

theorem reducesTo_nil (A : Accurate lib val u w η Ω) (Z : AddZero val Ω) {l : List F} {r : F} (h : ReducesTo l r) : l = [] → val r = 0 := by
  induction h with
  | init => intro _; exact A.zero
  | item x _ _ => intro h; cases h
  | join _ _ ih ih' =>
    intro h
    obtain ⟨h1, h2⟩ := List.append_eq_nil_iff.1 h
    have e := ih h1
    rw [Z.right _ _ (ih' h2) (by rw [e]; simpa using le_trans (by norm_num) A.big), e]
  | perm hp _ ih => rintro rfl; exact ih hp.eq_nil

/-- The rounding error of a sum, in any order and with any partial sums: at most `(1 + u) ^ (N - 1) - 1` times the sum of
the magnitudes of the `N` contributions. -/
theorem reducesTo_err (A : Accurate lib val u w η Ω) (Z : AddZero val Ω) {l : List F} {r : F} (h : ReducesTo l r) :
    (1 + u) ^ l.length * absSum val l ≤ Ω → |val r - (l.map val).sum| ≤ ((1 + u) ^ (l.length - 1) - 1) * absSum val l := by
  have hu := A.u_nonneg
  have h1u : 1 ≤ 1 + u := by linarith
  have small : ∀ {l : List F} {a : F}, |val a - (l.map val).sum| ≤ ((1 + u) ^ (l.length - 1) - 1) * absSum val l →
      (1 + u) ^ l.length * absSum val l ≤ Ω → |val a| ≤ Ω := by
    intro l a h1 h2
    have h3 := sum_le_absSum (val := val) l
    have h4 : |val a| ≤ |val a - (l.map val).sum| + |(l.map val).sum| := by
      have := abs_add_le (val a - (l.map val).sum) (l.map val).sum; rwa [sub_add_cancel] at this
    have h5 : (1 + u) ^ (l.length - 1) ≤ (1 + u) ^ l.length := pow_le_pow_right₀ h1u (by omega)
    have := mul_le_mul_of_nonneg_right h5 (absSum_nonneg (val := val) l)
    nlinarith
  induction h with
  | init => intro _; simp [absSum, A.zero]
  | @item l a x h ih =>
    intro hΩ
    have e : absSum val (x :: l) = |val x| + absSum val l := by simp [absSum]
    have h0 := absSum_nonneg (val := val) l
    have hle : (1 + u) ^ l.length ≤ (1 + u) ^ (x :: l).length := pow_le_pow_right₀ h1u (by simp)
    have hp1 : 1 ≤ (1 + u) ^ (x :: l).length := one_le_pow₀ h1u
    have hΩ' : (1 + u) ^ l.length * absSum val l ≤ Ω := by
      refine le_trans ?_ hΩ
      rw [e]
      exact mul_le_mul hle (by linarith [abs_nonneg (val x)]) h0 (by positivity)
    have hx : |val x| ≤ Ω := by
      refine le_trans ?_ hΩ
      rw [e]
      nlinarith [abs_nonneg (val x)]
    have i1 := ih hΩ'
    rcases eq_or_ne l [] with rfl | hl
    · rw [Z.left _ _ (reducesTo_nil A Z h rfl) hx]
      simp [absSum]
    · have i2 := A.add a x (small i1 hΩ') hx
      have hlen : (x :: l).length - 1 = (l.length - 1) + 1 := by
        have := List.length_pos_iff.2 hl
        simp; omega
      rw [List.map_cons, List.sum_cons, e, hlen, add_comm (val x), add_comm |val x|]
      refine add_step hu (sum_le_absSum l) le_rfl (one_le_pow₀ h1u) (le_refl 1) i1 (by simp) i2 (by rw [pow_succ]) ?_
      rw [one_mul, pow_succ]
      nlinarith [one_le_pow₀ h1u (n := l.length - 1)]
  | @join l l' a b h h' ih ih' =>
    intro hΩ
    have e : absSum val (l ++ l') = absSum val l + absSum val l' := by simp [absSum]
    have h0 := absSum_nonneg (val := val) l
    have h0' := absSum_nonneg (val := val) l'
    have hle : (1 + u) ^ l.length ≤ (1 + u) ^ (l ++ l').length := pow_le_pow_right₀ h1u (by simp)
    have hle' : (1 + u) ^ l'.length ≤ (1 + u) ^ (l ++ l').length := pow_le_pow_right₀ h1u (by simp)
    have hΩ1 : (1 + u) ^ l.length * absSum val l ≤ Ω := by
      refine le_trans ?_ hΩ
      rw [e]
      exact mul_le_mul hle (by linarith) h0 (by positivity)
    have hΩ2 : (1 + u) ^ l'.length * absSum val l' ≤ Ω := by
      refine le_trans ?_ hΩ
      rw [e]
      exact mul_le_mul hle' (by linarith) h0' (by positivity)
    have i1 := ih hΩ1
    have i2 := ih' hΩ2
    rcases eq_or_ne l [] with rfl | hl
    · rw [Z.left _ _ (reducesTo_nil A Z h rfl) (small i2 hΩ2)]
      simpa using i2
    rcases eq_or_ne l' [] with rfl | hl'
    · rw [Z.right _ _ (reducesTo_nil A Z h' rfl) (small i1 hΩ1)]
      simpa using i1
    have p1 := List.length_pos_iff.2 hl
    have p2 := List.length_pos_iff.2 hl'
    have i3 := A.add a b (small i1 hΩ1) (small i2 hΩ2)
    rw [List.map_append, List.sum_append, e]
    refine add_step hu (sum_le_absSum l) (sum_le_absSum l') (one_le_pow₀ h1u) (one_le_pow₀ h1u) i1 i2 i3 ?_ ?_ <;>
    · rw [← pow_succ]
      exact pow_le_pow_right₀ h1u (by simp; omega)
  | @perm l l' a hp h ih =>
    intro hΩ
    have e : absSum val l' = absSum val l := ((hp.map _).sum_eq).symm
    rw [← (hp.map val).sum_eq, ← hp.length_eq, e]
    exact ih (by rw [hp.length_eq, ← e]; exact hΩ)

end

end Verif.Proofs
