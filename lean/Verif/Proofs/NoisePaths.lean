import Verif.Proofs.Noise
import Verif.Spec.Noise
import Mathlib.Data.List.Perm.Basic

/-! # The paths of the shots -/

namespace Verif.Proofs
open Verif Verif.Spec Verif.Model
attribute [-simp] BitVec.getLsbD_eq_getElem

theorem sum_indicator {α : Type} [BEq α] [LawfulBEq α] (labels : List α) (hn : labels.Nodup) (a : α) (f : α → Nat) :
    (labels.map fun p => if p == a then f p else 0).sum = if labels.contains a then f a else 0 := by
  induction labels with
  | nil => simp
  | cons l ls ih =>
    rw [List.nodup_cons] at hn
    rw [List.map_cons, List.sum_cons, ih hn.2]
    by_cases h : l = a
    · subst h
      simp [hn.1]
    · simp [h, Ne.symm h, beq_false_of_ne]

/-- grouping equal elements is a rearrangement -/
theorem group_perm {α : Type} [BEq α] [LawfulBEq α] {labels paths : List α} (hn : labels.Nodup) (hm : ∀ p ∈ paths, p ∈ labels) :
    (labels.flatMap fun p => List.replicate (paths.count p) p).Perm paths := by
  rw [List.perm_iff_count]
  intro a
  rw [List.count_flatMap]
  have : (List.map (List.count a ∘ fun p => List.replicate (paths.count p) p) labels) =
      labels.map fun p => if p == a then paths.count p else 0 := by
    apply List.map_congr_left
    intro p _
    show List.count a (List.replicate _ p) = _
    rw [List.count_replicate]
  rw [this, sum_indicator labels hn]
  by_cases ha : a ∈ labels
  · rw [if_pos (List.contains_iff_mem.2 ha)]
  · rw [if_neg (fun hc => ha (List.contains_iff_mem.1 hc)), eq_comm, List.count_eq_zero]
    exact fun h => ha (hm a h)

theorem sum_counts {α : Type} [BEq α] [LawfulBEq α] {labels paths : List α} (hn : labels.Nodup) (hm : ∀ p ∈ paths, p ∈ labels) :
    (labels.map fun p => paths.count p).sum = paths.length := by
  rw [← (group_perm hn hm).length_eq, List.length_flatMap]
  simp

theorem flatMap_slices {draws : Nat → Nat} {cs : List Nat} {pos : Nat} :
    (List.range cs.length).flatMap (slotDraws draws cs pos) = drawSlice draws pos cs.sum := by
  have key : ∀ B, B ≤ cs.length → (List.range B).flatMap (slotDraws draws cs pos) = drawSlice draws pos (drawOff cs pos B - pos) := by
    intro B
    induction B with
    | zero => intro _; simp [drawOff, drawSlice]
    | succ B ih =>
      intro hB
      rw [List.range_succ, List.flatMap_append, ih (by omega), drawOff_succ (by omega)]
      have hp : pos ≤ drawOff cs pos B := Nat.le_add_right _ _
      simp only [List.flatMap_cons, List.flatMap_nil, List.append_nil]
      unfold slotDraws drawSlice
      rw [show drawOff cs pos B + cs[B]?.getD 0 - pos = (drawOff cs pos B - pos) + cs[B]?.getD 0 by omega, List.range_add,
        List.map_append, List.map_map]
      congr 1
      apply List.map_congr_left
      intro t _
      show _ = draws (pos + (drawOff cs pos B - pos + t))
      congr 1
      omega
  have := key cs.length le_rfl
  rwa [show drawOff cs pos cs.length - pos = cs.sum by unfold drawOff; rw [List.take_length]; omega] at this

section
variable {labels paths : List (List Nat)} {draws : Nat → Nat} {pos K : Nat}

/-- the label of slot `j` -/
def lab (labels : List (List Nat)) (j : Nat) : List Nat := labels[j]?.getD []

/-- the draws of slot `j` -/
abbrev pathDraws (labels paths : List (List Nat)) (draws : Nat → Nat) (pos j : Nat) : List Nat :=
  slotDraws draws (labels.map fun p => paths.count p) pos j

/-- the paths after one more layer -/
def nextPaths (labels paths : List (List Nat)) (draws : Nat → Nat) (pos : Nat) : List (List Nat) :=
  (List.range labels.length).flatMap fun j => (pathDraws labels paths draws pos j).map fun i => lab labels j ++ [i]

/-- the pairs that occur -/
abbrev nextHits (labels paths : List (List Nat)) (draws : Nat → Nat) (pos K : Nat) : List (Nat × Nat) :=
  hits K labels.length (hitCount draws (labels.map fun p => paths.count p) pos)

/-- the labels after one more layer -/
def nextLabels (labels paths : List (List Nat)) (draws : Nat → Nat) (pos K : Nat) : List (List Nat) :=
  (nextHits labels paths draws pos K).map fun p => lab labels p.2 ++ [p.1]

theorem lab_eq {j : Nat} (hj : j < labels.length) : lab labels j = labels[j] := by
  unfold lab; rw [List.getElem?_eq_getElem hj]; rfl

theorem lab_inj (hn : labels.Nodup) {i j : Nat} (hi : i < labels.length) (hj : j < labels.length) (h : lab labels i = lab labels j) :
    i = j := by
  rw [lab_eq hi, lab_eq hj] at h
  exact (List.Nodup.getElem_inj_iff hn).1 h

theorem count_nextPaths (hn : labels.Nodup) {j : Nat} (hj : j < labels.length) (i : Nat) :
    (nextPaths labels paths draws pos).count (lab labels j ++ [i]) = hitCount draws (labels.map fun p => paths.count p) pos j i := by
  unfold nextPaths
  rw [List.count_flatMap]
  have : (List.map (List.count (lab labels j ++ [i]) ∘ fun j => (pathDraws labels paths draws pos j).map fun i => lab labels j ++ [i])
      (List.range labels.length)) =
      (List.range labels.length).map fun j' => if j' == j then hitCount draws (labels.map fun p => paths.count p) pos j' i else 0 := by
    apply List.map_congr_left
    intro j' hj'
    have hj' := List.mem_range.1 hj'
    show List.count _ (List.map _ _) = _
    by_cases h : j' = j
    · subst h
      rw [if_pos (beq_self_eq_true _), List.count_map_of_injective (f := fun i => lab labels j' ++ [i])]
      · rfl
      · intro a b hab
        have := List.append_cancel_left hab
        exact List.singleton_inj.1 this
    · rw [if_neg (by simpa using h), List.count_eq_zero]
      intro hm
      obtain ⟨a, -, ha⟩ := List.mem_map.1 hm
      exact h (lab_inj hn hj' hj (List.append_inj' ha rfl).1)
  rw [this, sum_indicator _ List.nodup_range, if_pos (List.contains_iff_mem.2 (List.mem_range.2 hj))]

theorem nextLabels_nodup (hn : labels.Nodup) : (nextLabels labels paths draws pos K).Nodup := by
  refine List.Nodup.map_on ?_ (hits_nodup _ _ _)
  rintro ⟨i, j⟩ h1 ⟨i', j'⟩ h2 he
  have h1 := (mem_hits.1 h1).2.1
  have h2 := (mem_hits.1 h2).2.1
  obtain ⟨e1, e2⟩ := List.append_inj' he rfl
  exact Prod.ext (List.singleton_inj.1 e2) (lab_inj hn h1 h2 e1)

theorem mem_slice {i j : Nat} : i ∈ pathDraws labels paths draws pos j ↔
    hitCount draws (labels.map fun p => paths.count p) pos j i ≠ 0 := by
  unfold hitCount
  rw [Ne, List.count_eq_zero, not_not]

theorem mem_nextPaths {q : List Nat} : q ∈ nextPaths labels paths draws pos ↔ ∃ j, j < labels.length ∧
    ∃ i ∈ pathDraws labels paths draws pos j, q = lab labels j ++ [i] := by
  unfold nextPaths
  simp only [List.mem_flatMap, List.mem_range, List.mem_map]
  constructor
  · rintro ⟨j, hj, i, hi, rfl⟩; exact ⟨j, hj, i, hi, rfl⟩
  · rintro ⟨j, hj, i, hi, rfl⟩; exact ⟨j, hj, i, hi, rfl⟩

theorem slice_lt (hd : ∀ t, t < (labels.map fun p => paths.count p).sum → draws (pos + t) < K) {i j : Nat} (hj : j < labels.length)
    (h : i ∈ pathDraws labels paths draws pos j) : i < K := by
  have : i ∈ drawSlice draws pos (labels.map fun p => paths.count p).sum := by
    rw [← flatMap_slices]
    exact List.mem_flatMap.2 ⟨j, by simpa using hj, h⟩
  obtain ⟨t, ht, rfl⟩ := List.mem_map.1 this
  exact hd t (List.mem_range.1 ht)

theorem mem_nextLabels (hd : ∀ t, t < (labels.map fun p => paths.count p).sum → draws (pos + t) < K) {q : List Nat} :
    q ∈ nextLabels labels paths draws pos K ↔ q ∈ nextPaths labels paths draws pos := by
  rw [mem_nextPaths]
  unfold nextLabels
  rw [List.mem_map]
  constructor
  · rintro ⟨⟨i, j⟩, h, rfl⟩
    obtain ⟨h1, h2, h3⟩ := mem_hits.1 h
    exact ⟨j, h2, i, mem_slice.2 h3, rfl⟩
  · rintro ⟨j, hj, i, hi, rfl⟩
    exact ⟨(i, j), mem_hits.2 ⟨slice_lt hd hj hi, hj, mem_slice.1 hi⟩, rfl⟩

theorem nextPaths_last (hlen : ∀ p ∈ labels, p.length = m) :
    (nextPaths labels paths draws pos).map (·[m]?) = (drawSlice draws pos (labels.map fun p => paths.count p).sum).map some := by
  rw [← flatMap_slices, List.length_map]
  unfold nextPaths
  rw [List.map_flatMap, List.map_flatMap]
  have : ∀ j ∈ List.range labels.length,
      List.map (·[m]?) ((pathDraws labels paths draws pos j).map fun i => lab labels j ++ [i]) =
      List.map some (pathDraws labels paths draws pos j) := by
    intro j hj
    rw [List.map_map]
    apply List.map_congr_left
    intro i _
    show (lab labels j ++ [i])[m]? = some i
    have hl : (lab labels j).length = m := by
      rw [lab_eq (List.mem_range.1 hj)]; exact hlen _ (List.getElem_mem _)
    rw [← hl]; simp
  rw [List.flatMap_congr this]

theorem nextPaths_init (hlen : ∀ p ∈ labels, p.length = m) (hn : labels.Nodup) (hm : ∀ p ∈ paths, p ∈ labels) {k : Nat} (hk : k < m) :
    ((nextPaths labels paths draws pos).map (·[k]?)).Perm (paths.map (·[k]?)) := by
  refine List.Perm.trans (List.Perm.of_eq ?_) ((group_perm hn hm).map _)
  unfold nextPaths
  rw [List.map_flatMap, List.map_flatMap]
  have hr : labels = (List.range labels.length).map (lab labels) := by
    apply List.ext_getElem
    · simp
    · intro i h1 h2
      simp [lab_eq h1]
  have hr' : ∀ F : List Nat → List (Option Nat), labels.flatMap F = (List.range labels.length).flatMap fun j => F (lab labels j) :=
    fun F => (congrArg (List.flatMap F) hr).trans (List.flatMap_map _ _ _)
  rw [hr']
  refine List.flatMap_congr fun j hj => ?_
  have hj := List.mem_range.1 hj
  have hl : (lab labels j).length = m := by
    rw [lab_eq hj]; exact hlen _ (List.getElem_mem _)
  rw [List.map_map, List.map_replicate]
  have : ((fun x : List Nat => x[k]?) ∘ fun i => lab labels j ++ [i]) = fun _ => (lab labels j)[k]? := by
    funext i
    show (lab labels j ++ [i])[k]? = _
    rw [List.getElem?_append_left (by omega)]
  rw [this, List.map_const']
  congr 1
  unfold pathDraws slotDraws drawSlice
  simp [hj, lab_eq hj]

/-! ## the invariant -/

/-- the state of the loop after the lines `ls` -/
structure NoiseInv (n : Nat) (θ : String → Option ℝ) (ls : List Line) (ψ : U64 → ℂ) (shots : Nat) (draws : Nat → Nat)
    (s : NoiseState) (labels paths : List (List Nat)) : Prop where
  size : labels.length = s.size
  counts : s.counts = labels.map fun p => paths.count p
  nodup : labels.Nodup
  mem : ∀ p ∈ paths, p ∈ labels
  mem' : paths ≠ [] → ∀ p ∈ labels, p ∈ paths
  total : paths.length = shots
  len : ∀ p ∈ labels, p.length = ls.length
  layers : ∀ k, k < ls.length → (paths.map (·[k]?)).Perm ((List.range shots).map fun t => some (draws (k * shots + t)))
  pos : s.pos = ls.length * shots
  state : ∀ b, b < labels.length → Along n θ ls (lab labels b) ψ (slotOf n b s.psi)

/-- labels and paths after further lines with the given numbers of alternatives -/
def pathsFrom (shots : Nat) (draws : Nat → Nat) : List Nat → Nat → List (List Nat) → List (List Nat) → List (List Nat) × List (List Nat)
  | [], _, labels, paths => (labels, paths)
  | K :: Ks, pos, labels, paths =>
    pathsFrom shots draws Ks (pos + shots) (nextLabels labels paths draws pos K) (nextPaths labels paths draws pos)

theorem along_snoc {n : Nat} {θ : String → Option ℝ} {ls : List Line} {cs : List Nat} {ψ φ : U64 → ℂ} (h : Along n θ ls cs ψ φ)
    (l : Line) (c : Nat) (hc : c < (l.instr.alternatives θ).length) :
    Along n θ (ls ++ [l]) (cs ++ [c]) ψ (onState (2 ^ n) (operatorOf (l.instr.alternatives θ)[c]) φ) := by
  induction h with
  | nil ψ => exact .cons _ _ _ _ _ _ hc (.nil _)
  | cons l' ls c' cs ψ ψ' hc' _ ih => exact .cons _ _ _ _ _ _ hc' ih

/-- the entry offers the alternatives of the instruction -/
structure Offers (n : Nat) (θ : String → Option ℝ) (i : Instr) (g : Item) : Prop where
  alts : ∃ probs alts, Item.alternatives g = .ok (probs, alts) ∧ WeightsOK probs ∧ probs.length = (i.alternatives θ).length ∧
    ∀ k (hk : k < (i.alternatives θ).length), ∃ a, alts[k]? = some a ∧ AltIs n θ a (onState (2 ^ n) (operatorOf (i.alternatives θ)[k]))

theorem NoiseInv.bound {n : Nat} {θ : String → Option ℝ} {ls : List Line} {ψ : U64 → ℂ} {shots : Nat} {s : NoiseState}
    (h : NoiseInv n θ ls ψ shots draws s labels paths) (h0 : paths ≠ []) : s.size ≤ shots := by
  rw [← h.size, ← h.total]
  exact (h.nodup.subperm (h.mem' h0)).length_le

theorem noiseInv_step {L n : Nat} {θ : String → Option ℝ} {ls : List Line} {l : Line} {g : Item} {ψ : U64 → ℂ} {shots : Nat}
    {s : NoiseState} (h : NoiseInv n θ ls ψ shots draws s labels paths) (ho : Offers n θ l.instr g) (hL : LanesOK L)
    (hs : s.size * 2 ^ n ≤ 2 ^ 64) (hsh : shots * 2 ^ n ≤ 2 ^ 64)
    (hd : ∀ t, t < shots → draws (ls.length * shots + t) < (l.instr.alternatives θ).length) :
    (∃ s', NoiseStep L n draws θ g s s' none) ∧ ∀ s' f, NoiseStep L n draws θ g s s' f → f = none ∧
      NoiseInv n θ (ls ++ [l]) ψ shots draws s' (nextLabels labels paths draws s.pos (l.instr.alternatives θ).length)
        (nextPaths labels paths draws s.pos) ∧ s'.size * 2 ^ n ≤ 2 ^ 64 := by
  obtain ⟨probs, alts, hg, hw, hpl, halts⟩ := ho.alts
  have hsum : (labels.map fun p => paths.count p).sum = shots := by rw [sum_counts h.nodup h.mem, h.total]
  have hd' : ∀ t, t < (labels.map fun p => paths.count p).sum → draws (s.pos + t) < (l.instr.alternatives θ).length := by
    intro t ht
    rw [h.pos]
    exact hd t (by omega)
  have hlen' : (nextPaths labels paths draws s.pos).length = shots := by
    have := congrArg List.length (nextPaths_last (draws := draws) (paths := paths) (pos := s.pos) h.len)
    simpa [drawSlice, hsum] using this
  have hbound : (nextHits labels paths draws s.pos (l.instr.alternatives θ).length).length ≤ shots := by
    have h1 := ((nextLabels_nodup (draws := draws) (paths := paths) (pos := s.pos) (K := (l.instr.alternatives θ).length) h.nodup).subperm
      fun q hq => (mem_nextLabels hd').1 hq).length_le
    rw [hlen'] at h1
    unfold nextLabels at h1
    rwa [List.length_map] at h1
  have hsize : (nextHits labels paths draws s.pos (l.instr.alternatives θ).length).length * 2 ^ n ≤ 2 ^ 64 :=
    (Nat.mul_le_mul_right _ hbound).trans hsh
  have hiff := fun s' f => noiseStep (L := L) (n := n) (draws := draws) (params := θ) (op := fun k ψ =>
      if hk : k < (l.instr.alternatives θ).length then onState (2 ^ n) (operatorOf (l.instr.alternatives θ)[k]) ψ else ψ) hg hw hL
    (fun i hi => by
      obtain ⟨a, h1, h2⟩ := halts i (by omega)
      refine ⟨a, h1, ?_⟩
      simp only [dif_pos (show i < (l.instr.alternatives θ).length by omega)]
      exact h2) (s := s) (by rw [h.counts, List.length_map, h.size]) hs (by rw [h.counts, hpl]; exact hd')
    (by rw [h.counts, hpl, ← h.size]; exact hsize) s' f
  rw [h.counts, hpl, ← h.size] at hiff
  refine ⟨⟨_, (hiff _ none).2 ⟨⟨fun _ => 0, rfl⟩, rfl⟩⟩, ?_⟩
  intro s' f hstep
  obtain ⟨⟨junk, rfl⟩, rfl⟩ := (hiff s' f).1 hstep
  refine ⟨rfl, ?_, hsize⟩
  refine ⟨by unfold nextLabels; rw [List.length_map], ?_, nextLabels_nodup h.nodup, fun p hp => (mem_nextLabels hd').2 hp,
    fun _ p hp => (mem_nextLabels hd').1 hp, hlen', ?_, ?_, ?_, ?_⟩
  · dsimp only
    unfold nextLabels
    rw [List.map_map]
    apply List.map_congr_left
    rintro ⟨i, j⟩ hij
    exact (count_nextPaths h.nodup (mem_hits.1 hij).2.1 i).symm
  · intro p hp
    obtain ⟨j, hj, i, -, rfl⟩ := mem_nextPaths.1 ((mem_nextLabels hd').1 hp)
    rw [List.length_append, List.length_append, lab_eq hj, h.len _ (List.getElem_mem hj)]
    rfl
  · intro k hk
    rw [List.length_append] at hk
    by_cases hkl : k < ls.length
    · exact (nextPaths_init h.len h.nodup h.mem hkl).trans (h.layers k hkl)
    · obtain rfl : k = ls.length := by simp at hk; omega
      rw [nextPaths_last h.len, hsum, h.pos]
      unfold drawSlice
      rw [List.map_map]
      rfl
  · dsimp only
    rw [hsum, h.pos, List.length_append]
    simp [Nat.add_mul]
  · intro b hb
    have hb' : b < (nextHits labels paths draws s.pos (l.instr.alternatives θ).length).length := by
      unfold nextLabels at hb; rwa [List.length_map] at hb
    obtain ⟨hi, hj, hu⟩ := mem_hits.1 (List.getElem_mem hb')
    have hlab : lab (nextLabels labels paths draws s.pos (l.instr.alternatives θ).length) b =
        lab labels (nextHits labels paths draws s.pos (l.instr.alternatives θ).length)[b].2 ++
          [(nextHits labels paths draws s.pos (l.instr.alternatives θ).length)[b].1] := by
      rw [lab_eq hb]
      simp only [nextLabels, List.getElem_map]
    have hst : hitState (nextHits labels paths draws s.pos (l.instr.alternatives θ).length) (fun p =>
        (fun k ψ => if hk : k < (l.instr.alternatives θ).length then onState (2 ^ n) (operatorOf (l.instr.alternatives θ)[k]) ψ else ψ)
          p.1 (slotOf n p.2 s.psi)) b = onState (2 ^ n) (operatorOf (l.instr.alternatives θ)[(nextHits labels paths draws s.pos (l.instr.alternatives θ).length)[b].1])
            (slotOf n (nextHits labels paths draws s.pos (l.instr.alternatives θ).length)[b].2 s.psi) := by
      unfold hitState
      rw [dif_pos hb']
      dsimp only
      rw [dif_pos hi]
    dsimp only
    rw [hlab, slotOf_ofSlots_zero hsize hb' junk (by rw [hst]; exact onState_zero _ (slotOf_zero _ _ _)), hst]
    exact along_snoc (h.state _ hj) l _ hi

theorem noiseInv_loop {L n : Nat} {θ : String → Option ℝ} {ls rest : List Line} {gs : List Item} {ψ : U64 → ℂ} {shots : Nat}
    {s : NoiseState} (h : NoiseInv n θ ls ψ shots draws s labels paths)
    (ho : List.Forall₂ (fun l g => Offers n θ l.instr g) rest gs) (hL : LanesOK L)
    (hs : s.size * 2 ^ n ≤ 2 ^ 64) (hsh : shots * 2 ^ n ≤ 2 ^ 64)
    (hd : ∀ k (hk : k < rest.length) t, t < shots →
      draws ((ls.length + k) * shots + t) < ((rest[k]).instr.alternatives θ).length) :
    (∃ s', SeqRun (NoiseStep L n draws θ) gs s s' none) ∧ ∀ s' f, SeqRun (NoiseStep L n draws θ) gs s s' f → f = none ∧
      NoiseInv n θ (ls ++ rest) ψ shots draws s'
        (pathsFrom shots draws (rest.map fun l => (l.instr.alternatives θ).length) s.pos labels paths).1
        (pathsFrom shots draws (rest.map fun l => (l.instr.alternatives θ).length) s.pos labels paths).2 := by
  induction ho generalizing ls s labels paths with
  | nil =>
    refine ⟨⟨s, .nil _⟩, fun s' f hr => ?_⟩
    cases hr
    exact ⟨rfl, by rwa [List.append_nil]⟩
  | @cons l g rest gs hog _ ih =>
    obtain ⟨⟨s1, hs1⟩, hall⟩ := noiseInv_step h hog hL hs hsh (hd 0 (by simp))
    have next : ∀ s1, NoiseStep L n draws θ g s s1 none → (∃ s', SeqRun (NoiseStep L n draws θ) gs s1 s' none) ∧
        ∀ s' f, SeqRun (NoiseStep L n draws θ) gs s1 s' f → f = none ∧
          NoiseInv n θ (ls ++ l :: rest) ψ shots draws s'
            (pathsFrom shots draws ((l :: rest).map fun l => (l.instr.alternatives θ).length) s.pos labels paths).1
            (pathsFrom shots draws ((l :: rest).map fun l => (l.instr.alternatives θ).length) s.pos labels paths).2 := by
      intro s1 h1
      obtain ⟨-, hinv, hsz⟩ := hall s1 none h1
      have hpos : s1.pos = s.pos + shots := by
        rw [hinv.pos, h.pos, List.length_append, List.length_singleton, Nat.add_mul, Nat.one_mul]
      have := ih hinv hsz (fun k hk t ht => by
        have := hd (k + 1) (by simp; omega) t ht
        rw [List.length_append, List.length_singleton]
        rw [show ls.length + (k + 1) = ls.length + 1 + k by omega] at this
        exact this)
      rw [List.append_assoc, hpos] at this
      exact this
    refine ⟨?_, ?_⟩
    · obtain ⟨⟨s2, hs2⟩, -⟩ := next s1 hs1
      exact ⟨s2, .cons _ _ _ _ _ _ hs1 hs2⟩
    · intro s' f hr
      cases hr with
      | cons _ _ _ c1 _ _ h1 h2 => exact (next c1 h1).2 s' f h2
      | stop _ _ _ _ e h1 => exact absurd (hall _ _ h1).1 (by simp)
end

end Verif.Proofs
