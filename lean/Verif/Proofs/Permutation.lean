import Verif.Model.Random
import Verif.Proofs.MaskVec

/-! # Proofs about `Random::permutation` -/

namespace Verif.Proofs
open Verif Verif.Model

theorem swapAt_spec {α : Type} {v : List α} {i j : Nat} (hi : i < v.length) (hj : j < v.length) :
    ∃ w, swapAt v i j = .ok w ∧ w.length = v.length ∧ w.Perm v ∧
      ∀ x, x < v.length → w[x]? = if x = j then v[i]? else if x = i then v[j]? else v[x]? := by
  refine ⟨(v.set i v[j]).set j v[i], ?_, by simp, List.set_set_perm hi hj, ?_⟩
  · unfold swapAt
    rw [List.getElem?_eq_getElem hi, List.getElem?_eq_getElem hj]
  · intro x hx
    by_cases hxj : x = j
    · subst hxj; simp [hx, hi]
    · by_cases hxi : x = i
      · subst hxi; simp [hx, hxj, Ne.symm hxj, hj]
      · simp [hxj, hxi, Ne.symm hxj, Ne.symm hxi]

/-- one step of the loop, written without the test `i ≠ j` -/
theorem shuffle_step {mt : Nat → Nat} {i k : Nat} {v : List Nat} (hi : i < v.length) :
    ∃ w, shuffleLoop mt (i + 1) k v = shuffleLoop mt i (k + 1) w ∧ w.length = v.length ∧ w.Perm v ∧
      ∀ x, x < v.length → w[x]? = if x = int32 (mt k) % (i + 1) then v[i]? else if x = i then v[int32 (mt k) % (i + 1)]? else v[x]? := by
  have hj : int32 (mt k) % (i + 1) < v.length := by
    have := Nat.mod_lt (int32 (mt k)) (Nat.succ_pos i)
    simp only [Nat.succ_eq_add_one] at this
    omega
  by_cases hij : i ≠ int32 (mt k) % (i + 1)
  · obtain ⟨w, h1, h2, h3, h4⟩ := swapAt_spec hi hj
    refine ⟨w, ?_, h2, h3, h4⟩
    rw [shuffleLoop, if_pos hij, h1]
    rfl
  · rw [not_not] at hij
    refine ⟨v, ?_, rfl, List.Perm.refl v, ?_⟩
    · rw [shuffleLoop, if_neg (by rw [not_not]; exact hij)]
      rfl
    · intro x hx
      rw [← hij]
      by_cases e : x = i
      · rw [if_pos e, e]
      · rw [if_neg e, if_neg e]

theorem shuffle_perm {mt : Nat → Nat} {m k : Nat} {v : List Nat} (hm : m ≤ v.length) :
    ∃ w, shuffleLoop mt m k v = .ok w ∧ w.Perm v ∧ ∀ x, m ≤ x → w[x]? = v[x]? := by
  induction m generalizing k v with
  | zero => exact ⟨v, rfl, List.Perm.refl v, fun _ _ => rfl⟩
  | succ i ih =>
    obtain ⟨w, h1, h2, h3, h4⟩ := shuffle_step (mt := mt) (i := i) (k := k) (v := v) (by omega)
    obtain ⟨u, hu, hp, hx⟩ := ih (k := k + 1) (v := w) (by omega)
    refine ⟨u, h1.trans hu, hp.trans h3, fun x hmx => ?_⟩
    rw [hx x (by omega)]
    by_cases hxv : x < v.length
    · rw [h4 x hxv, if_neg, if_neg (by omega)]
      have := Nat.mod_lt (int32 (mt k)) (Nat.succ_pos i)
      simp only [Nat.succ_eq_add_one] at this
      omega
    · rw [List.getElem?_eq_none (by omega), List.getElem?_eq_none (by omega)]

theorem shuffle_congr {mt mt' : Nat → Nat} {m k : Nat} (h : ∀ x, k ≤ x → mt x = mt' x) (v : List Nat) :
    shuffleLoop mt m k v = shuffleLoop mt' m k v := by
  induction m generalizing k v with
  | zero => rfl
  | succ i ih =>
    rw [shuffleLoop, shuffleLoop, h k le_rfl]
    have := fun w => ih (k := k + 1) (fun x hx => h x (by omega)) w
    simp only [this]

theorem shuffle_reach {m k : Nat} {v t : List Nat} (hv : v.Nodup) (hp : t.Perm v) (hm : m ≤ v.length) (hm32 : m ≤ 2 ^ 32 - 1)
    (hag : ∀ x, m ≤ x → t[x]? = v[x]?) : ∃ mt : Nat → Nat, (∀ x, mt x < 2 ^ 64) ∧ shuffleLoop mt m k v = .ok t := by
  induction m generalizing k v with
  | zero =>
    refine ⟨fun _ => 0, fun _ => by norm_num, ?_⟩
    rw [show t = v from List.ext_getElem? fun i => hag i (Nat.zero_le _)]
    rfl
  | succ i ih =>
    have hit : i < t.length := by rw [hp.length_eq]; omega
    obtain ⟨j, hj, hget⟩ := List.getElem_of_mem (hp.subset (List.getElem_mem hit))
    have hji : j < i + 1 := by
      by_contra hge
      have h1 := hag j (by omega)
      rw [List.getElem?_eq_getElem hj, hget] at h1
      have hjt : j < t.length := by rw [hp.length_eq]; exact hj
      rw [List.getElem?_eq_getElem hjt] at h1
      have := (List.Nodup.getElem_inj_iff (hp.nodup_iff.2 hv)).1 (Option.some.inj h1)
      omega
    have h32 : int32 j % (i + 1) = j := by
      unfold int32
      rw [Nat.mod_eq_of_lt (show j < 2 ^ 32 - 1 by omega), Nat.mod_eq_of_lt hji]
    obtain ⟨w, h1, h2, h3, h4⟩ := shuffle_step (mt := fun _ => j) (i := i) (k := k) (v := v) (by omega)
    rw [h32] at h4
    obtain ⟨mt, hmt, hrun⟩ := ih (k := k + 1) (v := w) (h3.nodup_iff.2 hv) (hp.trans h3.symm) (by omega) (by omega) (by
      intro x hx
      by_cases hxv : x < v.length
      · rw [h4 x hxv]
        by_cases hxi : x = i
        · subst hxi
          by_cases hxj : x = j
          · subst hxj
            rw [if_pos rfl, List.getElem?_eq_getElem hit, List.getElem?_eq_getElem hj, hget]
          · rw [if_neg hxj, if_pos rfl, List.getElem?_eq_getElem hit, List.getElem?_eq_getElem hj, hget]
        · rw [if_neg (by omega), if_neg hxi]
          exact hag x (by omega)
      · rw [List.getElem?_eq_none (by rw [hp.length_eq]; omega), List.getElem?_eq_none (by omega)])
    refine ⟨fun x => if x = k then j else mt x, fun x => ?_, ?_⟩
    · dsimp only
      split
      · omega
      · exact hmt x
    · obtain ⟨w', h1', h2', h3', h4'⟩ := shuffle_step (mt := fun x => if x = k then j else mt x) (i := i) (k := k) (v := v) (by omega)
      rw [if_pos rfl, h32] at h4'
      have hww : w' = w := by
        apply List.ext_getElem?
        intro x
        by_cases hxv : x < v.length
        · rw [h4 x hxv, h4' x hxv]
        · rw [List.getElem?_eq_none (by omega), List.getElem?_eq_none (by omega)]
      rw [h1', hww, ← hrun]
      refine shuffle_congr (fun x hx => ?_) w
      rw [if_neg (by omega)]

end Verif.Proofs
