import Verif.Proofs.Permutation
import Verif.Spec.Chance
import Mathlib.Data.Nat.Count
import Mathlib.Data.Int.CardIntervalMod
import Mathlib.Data.Fintype.BigOperators
import Mathlib.Data.Fin.Tuple.Basic
import Mathlib.Logic.Equiv.Fin.Basic
import Mathlib.Algebra.Order.BigOperators.Ring.Finset
import Mathlib.Data.Real.Basic
import Mathlib.Tactic.Linarith
import Mathlib.Tactic.Ring
import Mathlib.Tactic.Positivity
import Mathlib.Tactic.NormNum
import Mathlib.Tactic.FieldSimp

/-! # How often `Random::permutation` returns each rearrangement -/

namespace Verif.Proofs
open Verif Verif.Model Verif.Spec

/-- for how many of the values of one draw the index chosen in step `i` is `j` -/
def drawHits (K i j : Nat) : Nat := ((Finset.univ : Finset (Fin K)).filter fun y => int32 y.val % (i + 1) = j).card

/-- the number of draws that lead from `v` to `t` -/
noncomputable def ways (K m : Nat) (v t : List Nat) : Nat :=
  ((Finset.univ : Finset (Fin m → Fin K)).filter fun x => shuffleLoop (drawn x) m 0 v = .ok t).card

theorem shuffle_shift {mt : Nat → Nat} {m k : Nat} (v : List Nat) : shuffleLoop mt m (k + 1) v = shuffleLoop (fun t => mt (t + 1)) m k v := by
  induction m generalizing k v with
  | zero => rfl
  | succ i ih =>
    rw [shuffleLoop, shuffleLoop]
    simp only [ih]

/-- The choices are determined: the number of ways is the product of the numbers of draws for the choices. -/
theorem ways_eq {K m : Nat} {v t : List Nat} (hv : v.Nodup) (hp : t.Perm v) (hm : m ≤ v.length) (hag : ∀ x, m ≤ x → t[x]? = v[x]?) :
    ∃ j : Nat → Nat, (∀ i, i < m → j i ≤ i) ∧ (∀ i, m = i + 1 → t[i]? = v[j i]?) ∧ ways K m v t = ∏ i ∈ Finset.range m, drawHits K i (j i) := by
  induction m generalizing v with
  | zero =>
    refine ⟨fun _ => 0, by simp, by simp, ?_⟩
    have e : t = v := List.ext_getElem? fun i => hag i (Nat.zero_le _)
    unfold ways
    rw [Finset.filter_true_of_mem (by intro x _; rw [e]; rfl)]
    simp
  | succ i ih =>
    have hit : i < t.length := by rw [hp.length_eq]; omega
    obtain ⟨j, hj, hget⟩ := List.getElem_of_mem (hp.subset (List.getElem_mem hit))
    have hji : j < i + 1 := by
      by_contra hge
      have h1 := hag j (by omega)
      rw [List.getElem?_eq_getElem hj, hget] at h1
      have hjt : j < t.length := by rw [hp.length_eq]; exact hj
      rw [List.getElem?_eq_getElem hjt] at h1
      have := (List.Nodup.getElem_inj_iff (hp.nodup_iff.2 hv)).1 (Option.some.inj h1)
      omega
    -- the list after the step that chooses `j`
    obtain ⟨w, -, h2, h3, h4⟩ : ∃ w, swapAt v i j = .ok w ∧ w.length = v.length ∧ w.Perm v ∧
      ∀ x, x < v.length → w[x]? = if x = j then v[i]? else if x = i then v[j]? else v[x]? := swapAt_spec (by omega) hj
    have hstep : ∀ mt : Nat → Nat, int32 (mt 0) % (i + 1) = j →
        shuffleLoop mt (i + 1) 0 v = shuffleLoop (fun t => mt (t + 1)) i 0 w := by
      intro mt hmt
      obtain ⟨w', h1', h2', h3', h4'⟩ := shuffle_step (mt := mt) (i := i) (k := 0) (v := v) (by omega)
      rw [hmt] at h4'
      have hww : w' = w := by
        apply List.ext_getElem?
        intro x
        by_cases hxv : x < v.length
        · rw [h4 x hxv, h4' x hxv]
        · rw [List.getElem?_eq_none (by omega), List.getElem?_eq_none (by omega)]
      rw [h1', hww, shuffle_shift]
    have hwag : ∀ x, i ≤ x → t[x]? = w[x]? := by
      intro x hx
      by_cases hxv : x < v.length
      · rw [h4 x hxv]
        by_cases hxi : x = i
        · subst hxi
          by_cases hxj : x = j
          · subst hxj
            rw [if_pos rfl, List.getElem?_eq_getElem hit, List.getElem?_eq_getElem hj, hget]
          · rw [if_neg hxj, if_pos rfl, List.getElem?_eq_getElem hit, List.getElem?_eq_getElem hj, hget]
        · rw [if_neg (by omega), if_neg hxi]
          exact hag x (by omega)
      · rw [List.getElem?_eq_none (by rw [hp.length_eq]; omega), List.getElem?_eq_none (by omega)]
    -- another choice leaves a wrong entry at position `i`
    have hother : ∀ mt : Nat → Nat, int32 (mt 0) % (i + 1) ≠ j → shuffleLoop mt (i + 1) 0 v ≠ .ok t := by
      intro mt hmt h
      obtain ⟨w', h1', h2', h3', h4'⟩ := shuffle_step (mt := mt) (i := i) (k := 0) (v := v) (by omega)
      obtain ⟨u, hu, -, hx⟩ := shuffle_perm (mt := mt) (m := i) (k := 0 + 1) (v := w') (by omega)
      rw [h1', hu] at h
      cases h
      have hlt := Nat.mod_lt (int32 (mt 0)) (Nat.succ_pos i)
      simp only [Nat.succ_eq_add_one] at hlt
      have e := hx i le_rfl
      have e2 : w'[i]? = v[int32 (mt 0) % (i + 1)]? := by
        rw [h4' i (by omega)]
        by_cases hc : i = int32 (mt 0) % (i + 1)
        · rw [if_pos hc, ← hc]
        · rw [if_neg hc, if_pos rfl]
      rw [e2, List.getElem?_eq_getElem hit, List.getElem?_eq_getElem (show int32 (mt 0) % (i + 1) < v.length by omega), ← hget] at e
      exact hmt ((List.Nodup.getElem_inj_iff hv).1 (Option.some.inj e)).symm
    obtain ⟨f, hf, -, hprod⟩ := ih (v := w) (h3.nodup_iff.2 hv) (hp.trans h3.symm) (by omega) hwag
    refine ⟨fun a => if a = i then j else f a, fun a ha => ?_, fun a ha => ?_, ?_⟩
    · dsimp only; split
      · omega
      · exact hf a (by omega)
    · obtain rfl : a = i := by omega
      simp only [if_true]
      rw [List.getElem?_eq_getElem hit, List.getElem?_eq_getElem hj, hget]
    · rw [Finset.prod_range_succ]
      simp only [if_true]
      have e1 : ∏ a ∈ Finset.range i, drawHits K a (if a = i then j else f a) = ∏ a ∈ Finset.range i, drawHits K a (f a) :=
        Finset.prod_congr rfl fun a ha => by rw [if_neg (by have := Finset.mem_range.1 ha; omega)]
      rw [e1, ← hprod, mul_comm]
      unfold ways drawHits
      rw [← Finset.card_product]
      refine Finset.card_bij (fun x _ => (x 0, fun a => x a.succ)) ?_ ?_ ?_
      · intro x hx
        have hx := (Finset.mem_filter.1 hx).2
        have h0 : drawn x 0 = (x 0).val := by unfold drawn; rw [dif_pos (by omega)]; rfl
        have hs : (fun t => drawn x (t + 1)) = drawn fun a : Fin i => x a.succ := by
          funext t; unfold drawn
          by_cases ht : t < i
          · rw [dif_pos ht, dif_pos (by omega)]; rfl
          · rw [dif_neg ht, dif_neg (by omega)]
        have hj' : int32 (drawn x 0) % (i + 1) = j := by by_contra hc; exact hother _ hc hx
        rw [hstep _ hj', hs] at hx
        rw [h0] at hj'
        exact Finset.mem_product.2 ⟨Finset.mem_filter.2 ⟨Finset.mem_univ _, hj'⟩, Finset.mem_filter.2 ⟨Finset.mem_univ _, hx⟩⟩
      · intro x _ y _ h
        obtain ⟨h0, hs⟩ := Prod.mk.inj h
        funext a
        refine Fin.cases h0 (fun b => congrFun hs b) a
      · rintro ⟨y, z⟩ hyz
        obtain ⟨hy, hz⟩ := Finset.mem_product.1 hyz
        have hy := (Finset.mem_filter.1 hy).2
        have hz := (Finset.mem_filter.1 hz).2
        have h0 : drawn (Fin.cons y z : Fin (i + 1) → Fin K) 0 = y.val := by unfold drawn; rw [dif_pos (by omega)]; rfl
        have hs : (fun t => drawn (Fin.cons y z : Fin (i + 1) → Fin K) (t + 1)) = drawn z := by
          funext t; unfold drawn
          by_cases ht : t < i
          · rw [dif_pos ht, dif_pos (by omega)]; rfl
          · rw [dif_neg ht, dif_neg (by omega)]
        refine ⟨Fin.cons y z, Finset.mem_filter.2 ⟨Finset.mem_univ _, ?_⟩, ?_⟩
        · rw [hstep _ (by rw [h0]; exact hy), hs]; exact hz
        · rfl

/-! ## the bias of one choice -/

theorem count_periodic (M Q : Nat) (p : Nat → Prop) [DecidablePred p] :
    ((Finset.range (M * Q)).filter fun x => p (x % M)).card = Q * ((Finset.range M).filter p).card := by
  induction Q with
  | zero => simp
  | succ Q ih =>
    rw [Nat.mul_succ, Finset.range_eq_Ico, ← Finset.Ico_union_Ico_eq_Ico (Nat.zero_le (M * Q)) (Nat.le_add_right _ M), Finset.filter_union,
      Finset.card_union_of_disjoint (Finset.disjoint_filter_filter (Finset.Ico_disjoint_Ico_consecutive _ _ _)), ← Finset.range_eq_Ico, ih,
      Nat.succ_mul]
    congr 1
    refine Finset.card_bij' (fun x _ => x - M * Q) (fun x _ => x + M * Q) ?_ ?_ ?_ ?_
    · intro x hx
      obtain ⟨h1, h2⟩ := Finset.mem_filter.1 hx
      have h1 := Finset.mem_Ico.1 h1
      have e : x % M = x - M * Q := by
        conv_lhs => rw [show x = x - M * Q + M * Q by omega]
        rw [Nat.add_mul_mod_self_left, Nat.mod_eq_of_lt (by omega)]
      rw [e] at h2
      exact Finset.mem_filter.2 ⟨Finset.mem_range.2 (by omega), h2⟩
    · intro x hx
      obtain ⟨h1, h2⟩ := Finset.mem_filter.1 hx
      have h1 := Finset.mem_range.1 h1
      refine Finset.mem_filter.2 ⟨Finset.mem_Ico.2 (by omega), ?_⟩
      rw [Nat.add_mul_mod_self_left, Nat.mod_eq_of_lt h1]
      exact h2
    · intro x hx
      have := Finset.mem_Ico.1 (Finset.mem_filter.1 hx).1
      omega
    · intro x _; omega

theorem count_mod {M d j : Nat} (hd : 0 < d) (hj : j < d) :
    ((Finset.range M).filter fun x => x % d = j).card = M / d + if j < M % d then 1 else 0 := by
  have h := Nat.count_modEq_card (b := M) (r := d) hd j
  rw [Nat.count_eq_card_filter_range, Nat.mod_eq_of_lt hj] at h
  rw [← h]
  congr 1
  refine Finset.filter_congr fun x _ => ?_
  unfold Nat.ModEq
  rw [Nat.mod_eq_of_lt hj]

/-- exactly how many of the outputs of a 64-bit engine choose `j` -/
theorem drawHits_eq {i j : Nat} (hj : j ≤ i) : drawHits (2 ^ 64) i j =
    (2 ^ 32 + 1) * ((2 ^ 32 - 1) / (i + 1) + if j < (2 ^ 32 - 1) % (i + 1) then 1 else 0) + if j = 0 then 1 else 0 := by
  have h1 : drawHits (2 ^ 64) i j = ((Finset.range (2 ^ 64)).filter fun y => int32 y % (i + 1) = j).card := by
    unfold drawHits
    refine Finset.card_bij (fun y _ => y.val) ?_ ?_ ?_
    · intro y hy
      exact Finset.mem_filter.2 ⟨Finset.mem_range.2 y.isLt, (Finset.mem_filter.1 hy).2⟩
    · intro a _ b _ h; exact Fin.ext h
    · intro y hy
      obtain ⟨a, b⟩ := Finset.mem_filter.1 hy
      exact ⟨⟨y, Finset.mem_range.1 a⟩, Finset.mem_filter.2 ⟨Finset.mem_univ _, b⟩, rfl⟩
  have hK : (2 : Nat) ^ 64 = (2 ^ 32 - 1) * (2 ^ 32 + 1) + 1 := by norm_num
  rw [h1, hK, Finset.range_add_one, Finset.filter_insert]
  have hlast : int32 ((2 ^ 32 - 1) * (2 ^ 32 + 1)) % (i + 1) = 0 := by
    unfold int32
    rw [Nat.mul_mod_right]; simp
  have hbody : ((Finset.range ((2 ^ 32 - 1) * (2 ^ 32 + 1))).filter fun y => int32 y % (i + 1) = j).card =
      (2 ^ 32 + 1) * ((2 ^ 32 - 1) / (i + 1) + if j < (2 ^ 32 - 1) % (i + 1) then 1 else 0) := by
    have := count_periodic (2 ^ 32 - 1) (2 ^ 32 + 1) (fun y => y % (i + 1) = j)
    rw [count_mod (by omega) (by omega)] at this
    exact this
  rw [hlast]
  by_cases h0 : j = 0
  · subst h0
    rw [if_pos rfl, Finset.card_insert_of_notMem (by simp), hbody, if_pos rfl]
  · rw [if_neg (Ne.symm h0), hbody, if_neg h0]; rfl

theorem drawHits_bounds {i j : Nat} (hi : i < 2 ^ 31) (hj : j ≤ i) :
    (1 - ((i : ℝ) + 1) / 2 ^ 32) * (2 ^ 64 / (i + 1)) ≤ drawHits (2 ^ 64) i j ∧
    (drawHits (2 ^ 64) i j : ℝ) ≤ (1 + ((i : ℝ) + 1) / 2 ^ 32) * (2 ^ 64 / (i + 1)) := by
  rw [drawHits_eq hj]
  have hdiv := Nat.div_add_mod (2 ^ 32 - 1) (i + 1)
  have hmod := Nat.mod_lt (2 ^ 32 - 1) (show 0 < i + 1 by omega)
  generalize hq : (2 ^ 32 - 1) / (i + 1) = q at *
  generalize hr : (2 ^ 32 - 1) % (i + 1) = r at *
  have hsum : ((i : ℝ) + 1) * q + r = 2 ^ 32 - 1 := by
    have : (((i + 1) * q + r : ℕ) : ℝ) = ((2 ^ 32 - 1 : ℕ) : ℝ) := by rw [hdiv]
    push_cast at this
    rw [this]; norm_num
  have hi0 : (0 : ℝ) ≤ i := Nat.cast_nonneg i
  have hi1 : (i : ℝ) + 1 ≤ 2 ^ 31 := by exact_mod_cast hi
  have hr0 : (0 : ℝ) ≤ r := Nat.cast_nonneg r
  have hr1 : (r : ℝ) ≤ i := by exact_mod_cast (by omega : r ≤ i)
  have hp : (0 : ℝ) < (i : ℝ) + 1 := by linarith
  have e1 : (1 - ((i : ℝ) + 1) / 2 ^ 32) * (2 ^ 64 / (i + 1)) = (2 ^ 64 - (i + 1) * 2 ^ 32) / (i + 1) := by field_simp
  have e2 : (1 + ((i : ℝ) + 1) / 2 ^ 32) * (2 ^ 64 / (i + 1)) = (2 ^ 64 + (i + 1) * 2 ^ 32) / (i + 1) := by field_simp
  rw [e1, e2, div_le_iff₀ hp, le_div_iff₀ hp]
  have hq0 : (0 : ℝ) ≤ q := Nat.cast_nonneg q
  push_cast
  constructor
  · have h1 : (0 : ℝ) ≤ ((if j < r then 1 else 0 : ℕ) : ℝ) := Nat.cast_nonneg _
    have h2 : (0 : ℝ) ≤ ((if j = 0 then 1 else 0 : ℕ) : ℝ) := Nat.cast_nonneg _
    push_cast at h1 h2
    nlinarith [mul_nonneg h1 hp.le, mul_nonneg h2 hp.le]
  · -- if r = 0 no residue has an extra element
    by_cases hjr : j < r
    · have hr2 : (1 : ℝ) ≤ r := by exact_mod_cast (by omega : 1 ≤ r)
      rw [if_pos hjr]
      have h2 : (if j = 0 then (1 : ℝ) else 0) ≤ 1 := by split <;> norm_num
      nlinarith [mul_le_mul_of_nonneg_right h2 hp.le]
    · rw [if_neg hjr]
      have h2 : (if j = 0 then (1 : ℝ) else 0) ≤ 1 := by split <;> norm_num
      nlinarith [mul_le_mul_of_nonneg_right h2 hp.le]

end Verif.Proofs
