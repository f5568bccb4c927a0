import Verif.Proofs.NoisePaths
import Verif.Proofs.DrawMean

/-! # The paths of the shots as a function of independent draws -/

namespace Verif.Proofs
open Verif Verif.Spec Verif.Model
attribute [-simp] BitVec.getLsbD_eq_getElem

theorem zipWith_flatMap {α β γ δ : Type*} (h : β → γ → δ) (l : List α) (f : α → List β) (g : α → List γ)
    (hl : ∀ a ∈ l, (f a).length = (g a).length) :
    List.zipWith h (l.flatMap f) (l.flatMap g) = l.flatMap fun a => List.zipWith h (f a) (g a) := by
  induction l with
  | nil => simp
  | cons a l ih =>
    rw [List.flatMap_cons, List.flatMap_cons, List.flatMap_cons, List.zipWith_append (hl a List.mem_cons_self),
      ih fun a ha => hl a (List.mem_cons_of_mem _ ha)]

theorem zipWith_replicate_left {β γ δ : Type*} (h : β → γ → δ) (x : β) (l : List γ) {m : Nat} (hm : l.length = m) :
    List.zipWith h (List.replicate m x) l = l.map (h x) := by
  induction l generalizing m with
  | nil => simp
  | cons a l ih =>
    subst hm
    rw [List.length_cons, List.replicate_succ, List.zipWith_cons_cons, ih rfl, List.map_cons]

theorem slice_length (draws : Nat → Nat) (pos m : Nat) : (drawSlice draws pos m).length = m := by simp [drawSlice]

theorem slotDraws_congr {draws draws' : Nat → Nat} {cs : List Nat} {pos : Nat} (h : ∀ t, t < cs.sum → draws (pos + t) = draws' (pos + t)) (j : Nat) :
    slotDraws draws cs pos j = slotDraws draws' cs pos j := by
  unfold slotDraws drawSlice
  by_cases hj : j < cs.length
  · refine List.map_congr_left fun t ht => ?_
    have ht := List.mem_range.1 ht
    have h1 := drawOff_le (cs := cs) (pos := pos) (j + 1)
    rw [drawOff_succ hj] at h1
    have h2 : pos ≤ drawOff cs pos j := Nat.le_add_right _ _
    have := h (drawOff cs pos j - pos + t) (by omega)
    rwa [show pos + (drawOff cs pos j - pos + t) = drawOff cs pos j + t by omega] at this
  · rw [List.getElem?_eq_none (by omega)]
    rfl

section
variable {labels paths : List (List Nat)} {draws draws' : Nat → Nat} {pos K m : Nat}

theorem nextPaths_congr (h : ∀ t, t < (labels.map fun p => paths.count p).sum → draws (pos + t) = draws' (pos + t)) :
    nextPaths labels paths draws pos = nextPaths labels paths draws' pos := by
  unfold nextPaths pathDraws
  simp only [fun j => slotDraws_congr h j]

theorem nextLabels_congr (h : ∀ t, t < (labels.map fun p => paths.count p).sum → draws (pos + t) = draws' (pos + t)) :
    nextLabels labels paths draws pos K = nextLabels labels paths draws' pos K := by
  have e : hitCount draws (labels.map fun p => paths.count p) pos = hitCount draws' (labels.map fun p => paths.count p) pos := by
    funext j i
    unfold hitCount
    rw [slotDraws_congr h j]
  unfold nextLabels nextHits
  rw [e]

/-- the shots grouped by their paths -/
theorem nextPaths_zip : nextPaths labels paths draws pos =
    List.zipWith (fun p i => p ++ [i]) (labels.flatMap fun p => List.replicate (paths.count p) p)
      (drawSlice draws pos (labels.map fun p => paths.count p).sum) := by
  have hr : labels = (List.range labels.length).map (lab labels) := by
    apply List.ext_getElem
    · simp
    · intro i h1 h2
      simp [lab_eq h1]
  have hr' : (labels.flatMap fun p => List.replicate (paths.count p) p) =
      (List.range labels.length).flatMap fun j => List.replicate (paths.count (lab labels j)) (lab labels j) :=
    (congrArg (List.flatMap fun p => List.replicate (paths.count p) p) hr).trans (List.flatMap_map _ _ _)
  have hl : ∀ j ∈ List.range labels.length, (slotDraws draws (labels.map fun p => paths.count p) pos j).length = paths.count (lab labels j) := by
    intro j hj
    have hj := List.mem_range.1 hj
    unfold slotDraws
    rw [slice_length]
    simp [hj, lab_eq hj]
  rw [hr', ← flatMap_slices, List.length_map, zipWith_flatMap _ _ _ _ fun j hj => by rw [List.length_replicate, hl j hj]]
  unfold nextPaths
  refine List.flatMap_congr fun j hj => ?_
  rw [zipWith_replicate_left _ _ _ (hl j hj)]

/-- a list as a sequence of draws -/
def seqOf (D : List Nat) (i : Nat) : Nat := D[i]?.getD 0

theorem seqOf_at (pre d D : List Nat) {t : Nat} (ht : t < d.length) : seqOf (pre ++ (d ++ D)) (pre.length + t) = d[t] := by
  unfold seqOf
  rw [List.getElem?_append_right (by omega), show pre.length + t - pre.length = t by omega, List.getElem?_append_left ht,
    List.getElem?_eq_getElem ht]
  rfl

theorem seqOf_slice (pre d D : List Nat) : drawSlice (seqOf (pre ++ (d ++ D))) pre.length d.length = d := by
  apply List.ext_getElem
  · simp [drawSlice]
  · intro i h1 h2
    simp only [drawSlice, List.getElem_map, List.getElem_range]
    exact seqOf_at pre d D h2

theorem pathsFrom_congr {shots : Nat} {Ks : List Nat} (h : ∀ t, t < Ks.length * shots → draws (pos + t) = draws' (pos + t))
    (hn : labels.Nodup) (hm : ∀ p ∈ paths, p ∈ labels) (hl : paths.length = shots)
    (hd : ∀ k (hk : k < Ks.length) t, t < shots → draws (pos + k * shots + t) < Ks[k]) :
    pathsFrom shots draws Ks pos labels paths = pathsFrom shots draws' Ks pos labels paths := by
  induction Ks generalizing pos labels paths with
  | nil => rfl
  | cons K Ks ih =>
    have hsum : (labels.map fun p => paths.count p).sum = shots := by rw [sum_counts hn hm, hl]
    have h0 : ∀ t, t < (labels.map fun p => paths.count p).sum → draws (pos + t) = draws' (pos + t) := by
      intro t ht
      rw [hsum] at ht
      refine h t ?_
      rw [List.length_cons, Nat.add_mul, Nat.one_mul]; omega
    have hd0 : ∀ t, t < (labels.map fun p => paths.count p).sum → draws (pos + t) < K := by
      intro t ht
      have := hd 0 (by simp) t (by omega)
      simpa using this
    rw [pathsFrom, pathsFrom, nextPaths_congr h0, nextLabels_congr h0]
    refine ih (fun t ht => ?_) ?_ ?_ ?_ ?_
    · have := h (shots + t) (by rw [List.length_cons, Nat.add_mul, Nat.one_mul]; omega)
      rwa [← Nat.add_assoc] at this
    · rw [← nextLabels_congr h0]; exact nextLabels_nodup hn
    · rw [← nextLabels_congr h0, ← nextPaths_congr h0]
      exact fun p hp => (mem_nextLabels hd0).2 hp
    · rw [nextPaths_zip, List.length_zipWith, slice_length, hsum, (group_perm hn hm).length_eq, hl, min_self]
    · intro k hk t ht
      have := hd (k + 1) (by simpa using hk) t ht
      rw [List.getElem_cons_succ] at this
      rwa [show pos + shots + k * shots + t = pos + (k + 1) * shots + t by rw [Nat.add_mul]; omega]

/-- the paths of the shots are built block by block -/
theorem layered_paths {As : List (List (ℕ × ℝ))} {Ks : List Nat} (hA : List.Forall₂ (fun A K => ∀ j, j ∈ A.map Prod.fst → j < K) As Ks)
    (pre : List Nat) (hn : labels.Nodup) (hm : ∀ p ∈ paths, p ∈ labels) (hl : paths.length = m) :
    Layered m As paths fun D => (pathsFrom m (seqOf (pre ++ D)) Ks pre.length labels paths).2 := by
  induction hA generalizing pre labels paths with
  | nil => exact List.Perm.refl _
  | @cons A K As Ks h1 _ ih =>
    refine ⟨_, group_perm hn hm, fun d hd hj => ?_⟩
    have hsum : (labels.map fun p => paths.count p).sum = m := by rw [sum_counts hn hm, hl]
    have hslice : ∀ D, drawSlice (seqOf (pre ++ (d ++ D))) pre.length (labels.map fun p => paths.count p).sum = d := by
      intro D
      rw [hsum, ← hd]
      exact seqOf_slice pre d D
    have hc : ∀ D t, t < (labels.map fun p => paths.count p).sum → seqOf (pre ++ (d ++ D)) (pre.length + t) = seqOf (pre ++ (d ++ [])) (pre.length + t) := by
      intro D t ht
      have ht : t < d.length := by omega
      rw [seqOf_at pre d D ht, seqOf_at pre d [] ht]
    have hd0 : ∀ t, t < (labels.map fun p => paths.count p).sum → seqOf (pre ++ (d ++ [])) (pre.length + t) < K := by
      intro t ht
      have ht : t < d.length := by omega
      rw [seqOf_at pre d [] ht]
      exact h1 _ (hj _ (List.getElem_mem ht))
    have := ih (pre ++ d) (labels := nextLabels labels paths (seqOf (pre ++ (d ++ []))) pre.length K)
      (paths := nextPaths labels paths (seqOf (pre ++ (d ++ []))) pre.length) (nextLabels_nodup hn)
      (fun p hp => (mem_nextLabels hd0).2 hp)
      (by rw [nextPaths_zip, List.length_zipWith, slice_length, hsum, (group_perm hn hm).length_eq, hl, min_self])
    have e1 : nextPaths labels paths (seqOf (pre ++ (d ++ []))) pre.length =
        List.zipWith (fun p i => p ++ [i]) (labels.flatMap fun p => List.replicate (paths.count p) p) d := by
      rw [nextPaths_zip, hslice]
    rw [e1] at this
    convert this using 1
    funext D
    show (pathsFrom m (seqOf (pre ++ (d ++ D))) (K :: Ks) pre.length labels paths).2 = _
    rw [pathsFrom, nextPaths_congr (hc D), nextLabels_congr (hc D), e1, List.append_assoc, List.length_append, hd]

end

/-! ## chances -/

theorem chances_fst (i : Instr) : i.chances.map Prod.fst = List.range i.weights.length := by
  unfold Instr.chances
  rw [List.map_map]
  refine List.ext_getElem (by simp) fun k h1 h2 => ?_
  simp

theorem chances_sum {i : Instr} (h : i.weights.sum ≠ 0) : (i.chances.map (·.2)).sum = 1 := by
  unfold Instr.chances
  rw [List.map_map]
  have : List.map ((fun x : ℕ × ℝ => x.2) ∘ fun wj : ℝ × ℕ => (wj.2, wj.1 / i.weights.sum)) i.weights.zipIdx = i.weights.map (· / i.weights.sum) := by
    refine List.ext_getElem (by simp) fun k h1 h2 => ?_
    simp
  rw [this]
  simp only [div_eq_mul_inv]
  rw [List.sum_map_mul_right, List.map_id', mul_inv_cancel₀ h]

theorem chances_mem {i : Instr} {j : Nat} {w : ℝ} (h : i.weights[j]? = some w) : (j, w / i.weights.sum) ∈ i.chances := by
  unfold Instr.chances
  refine List.mem_map.2 ⟨(w, j), ?_, rfl⟩
  rw [List.mem_zipIdx_iff_getElem?]
  exact h

theorem block_get {α : Type*} {l : List α} {m : Nat} (i : Nat) (hi : i < (l.flatMap (List.replicate m)).length) :
    ∃ hk : i / m < l.length, (l.flatMap (List.replicate m))[i] = l[i / m] := by
  induction l generalizing i with
  | nil => simp at hi
  | cons a l ih =>
    have hlen : (List.replicate m a ++ l.flatMap (List.replicate m)).length = ((a :: l).flatMap (List.replicate m)).length := by
      rw [List.flatMap_cons]
    simp only [List.flatMap_cons]
    by_cases h : i < m
    · refine ⟨by rw [Nat.div_eq_of_lt h]; simp, ?_⟩
      rw [List.getElem_append_left (by simpa using h)]
      simp [Nat.div_eq_of_lt h]
    · have h0 : 0 < m := by
        rcases Nat.eq_zero_or_pos m with rfl | h0
        · simp at hi
        · exact h0
      have e : i / m = (i - m) / m + 1 := by
        rw [← Nat.add_div_right _ h0]; congr 1; omega
      have hi' : i - m < (l.flatMap (List.replicate m)).length := by
        rw [← hlen, List.length_append, List.length_replicate] at hi; omega
      obtain ⟨hk, e2⟩ := ih (i - m) hi'
      refine ⟨by rw [e]; simpa using hk, ?_⟩
      rw [List.getElem_append_right (by simpa using h)]
      simp only [List.length_replicate, e, List.getElem_cons_succ]
      exact e2

/-! ## states -/

theorem pathState_of {n : Nat} {θ : String → Option ℝ} {ls : List Line} {cs : List Nat} {ψ ψ' : U64 → ℂ} (h : Along n θ ls cs ψ ψ') :
    ψ' = pathState n θ ls cs ψ := by
  induction h with
  | nil ψ => rfl
  | cons l ls c cs ψ ψ' hc _ ih =>
    rw [pathState, List.getElem?_eq_getElem hc]
    exact ih

theorem reports_states {n : Nat} {θ : String → Option ℝ} {ls : List Line} {ψ : U64 → ℂ} {paths : List (List Nat)}
    {res : List ((U64 → ℂ) × Int)} (h : Reports n θ ls ψ paths res) :
    (shotStates res).Perm (paths.map fun p => pathState n θ ls p (restrict n ψ)) ∧ ∀ r ∈ res, 0 ≤ r.2 := by
  obtain ⟨labels, hn, hm, -, hf⟩ := h.entries
  have h1 : shotStates res = (labels.flatMap fun p => List.replicate (paths.count p) p).map fun p => pathState n θ ls p (restrict n ψ) := by
    unfold shotStates
    rw [List.map_flatMap]
    clear hn hm h
    induction hf with
    | nil => rfl
    | cons h1 _ ih =>
      rw [List.flatMap_cons, List.flatMap_cons, ih, h1.2, Int.toNat_natCast, List.map_replicate, ← pathState_of h1.1]
  refine ⟨?_, ?_⟩
  · rw [h1]
    exact (group_perm hn hm).map _
  · clear hn hm h1 h
    induction hf with
    | nil => simp
    | cons h1 _ ih =>
      intro r hr
      rcases List.mem_cons.1 hr with rfl | hr
      · rw [h1.2]; exact Int.natCast_nonneg _
      · exact ih r hr

theorem shotStates_sum {E : Type*} [AddCommGroup E] [Module ℝ E] {res : List ((U64 → ℂ) × Int)} (h : ∀ r ∈ res, 0 ≤ r.2) (g : (U64 → ℂ) → E) :
    ((shotStates res).map g).sum = (res.map fun r => (r.2 : ℝ) • g r.1).sum := by
  unfold shotStates
  induction res with
  | nil => rfl
  | cons r res ih =>
    rw [List.flatMap_cons, List.map_append, List.sum_append, ih fun r hr => h r (List.mem_cons_of_mem _ hr), List.map_cons, List.sum_cons,
      List.map_replicate, List.sum_replicate]
    congr 1
    obtain ⟨k, hk⟩ := Int.eq_ofNat_of_zero_le (h r List.mem_cons_self)
    rw [hk]
    simp [Nat.cast_smul_eq_nsmul]

end Verif.Proofs
