import Verif.Proofs.SamplingLaw
import Verif.Proofs.FloatRead
import Verif.Model.FloatSample
import Verif.Spec.FloatSample
import Mathlib.MeasureTheory.Constructions.BorelSpace.Order

/-! # Sampling in floating-point arithmetic -/

namespace Verif.Proofs
open Verif Verif.Spec Verif.Model MeasureTheory ProbabilityTheory Filter
attribute [-simp] BitVec.getLsbD_eq_getElem

/-! ## only the numbers in `[0, 1)` matter -/

section
variable {κ : Type} [DecidableEq κ] {dim : Nat} {alloc : κ → Bool}

theorem sampleRound_congr {draw draw' : κ → ℝ → Res Nat} {rnd : Nat → ℝ} (h : ∀ t i, draw t (rnd i) = draw' t (rnd i)) (i : Nat) (ts : List κ)
    (result : κ → Nat) : sampleRound dim draw alloc rnd i ts result = sampleRound dim draw' alloc rnd i ts result := by
  induction ts generalizing i result with
  | nil => rfl
  | cons t ts ih =>
    unfold sampleRound
    rw [h]
    simp only [ih]

theorem sampleLoop_congr {draw draw' : κ → ℝ → Res Nat} {rnd : Nat → Nat → ℝ} (h : ∀ t k i, draw t (rnd k i) = draw' t (rnd k i)) {k : Nat}
    {ts : List κ} {result final : κ → Nat} (hl : SampleLoop dim draw alloc rnd k ts result final) : SampleLoop dim draw' alloc rnd k ts result final := by
  induction hl with
  | done k result => exact .done _ _
  | step k t todo next result result' final hr _ ih =>
    refine .step _ _ _ _ _ _ _ ?_ ih
    rw [← sampleRound_congr fun t i => h t k i]
    exact hr

open Classical in
/-- the search, restricted to the numbers that can be drawn -/
noncomputable def cutDraw (draw : κ → ℝ → Res Nat) (t : κ) (r : ℝ) : Res Nat :=
  if r ∈ Set.Ico (0 : ℝ) 1 then draw t r else .error (.ub "not drawn")

theorem cutDraw_of {draw : κ → ℝ → Res Nat} {t : κ} {r : ℝ} (h : r ∈ Set.Ico (0 : ℝ) 1) : cutDraw draw t r = draw t r := if_pos h

theorem cutDraw_set (draw : κ → ℝ → Res Nat) (t : κ) (k : Nat) : {r | cutDraw draw t r = .ok k} = Set.Ico (0 : ℝ) 1 ∩ {r | draw t r = .ok k} := by
  ext r
  simp only [Set.mem_ofPred_eq, Set.mem_inter_iff]
  by_cases h : r ∈ Set.Ico (0 : ℝ) 1
  · simp [cutDraw_of h, h]
  · simp [cutDraw, h]

theorem mass_cut (S : Set ℝ) : mass (Set.Ico (0 : ℝ) 1 ∩ S) = mass S := mass_congr fun r h0 h1 => by simp [h0, h1]

variable {Ω : Type*} [MeasurableSpace Ω] {μ : Measure Ω} {draws : ℕ → ℕ → Ω → ℝ} {draw : κ → ℝ → Res Nat} {v : κ → Nat}

theorem draws_in_unit (h : UniformDraws μ fun p : ℕ × ℕ => draws p.1 p.2) : ∀ᵐ ω ∂μ, ∀ k i, draws k i ω ∈ Set.Ico (0 : ℝ) 1 := by
  have h' := ae_all_iff.2 (key_unit h)
  filter_upwards [h'] with ω hω
  exact fun k i => hω (k, i)

theorem cut_law (hv : ∀ t, v t ≠ dim) (hms : ∀ t k, MeasurableSet (Set.Ico (0 : ℝ) 1 ∩ {r | draw t r = .ok k})) {ts : List κ}
    (hm : ∀ t ∈ ts, mass {r | draw t r = .ok dim} < 1) (hnd : ts.Nodup)
    (hal : ∀ t ∈ ts, alloc t = true) (h : UniformDraws μ fun p : ℕ × ℕ => draws p.1 p.2) (result : κ → Nat) :
    μ.real {ω | ∃ final, SampleLoop dim draw alloc (fun k i => draws k i ω) 0 ts result final ∧ ∀ t ∈ ts, final t = v t} =
      (ts.map fun t => mass {r | draw t r = .ok (v t)} / (1 - mass {r | draw t r = .ok dim})).prod := by
  have key := loop_law (draw := cutDraw draw) hv (fun t k => by rw [cutDraw_set]; exact hms t k) (ts := ts) (fun t ht => by
    unfold missSet; rw [cutDraw_set, mass_cut]; exact hm t ht) hnd hal h result
  simp only [hitSet, missSet, cutDraw_set, mass_cut] at key
  rw [← key]
  refine measureReal_congr ?_
  filter_upwards [draws_in_unit h] with ω hω
  refine propext (?_ : (∃ final, SampleLoop dim draw alloc (fun k i => draws k i ω) 0 ts result final ∧ ∀ t ∈ ts, final t = v t) ↔
    ∃ final, SampleLoop dim (cutDraw draw) alloc (fun k i => draws k i ω) 0 ts result final ∧ ∀ t ∈ ts, final t = v t)
  refine exists_congr fun final => and_congr ⟨sampleLoop_congr fun t k i => (cutDraw_of (hω k i)).symm, sampleLoop_congr fun t k i => cutDraw_of (hω k i)⟩ Iff.rfl

theorem cut_returns (hms : ∀ t k, MeasurableSet (Set.Ico (0 : ℝ) 1 ∩ {r | draw t r = .ok k})) (hok : ∀ t, ∀ r : ℝ, 0 ≤ r → r < 1 → ∃ k, draw t r = .ok k)
    {ts : List κ} (hm : ∀ t ∈ ts, mass {r | draw t r = .ok dim} < 1)
    (hal : ∀ t ∈ ts, alloc t = true) (h : UniformDraws μ fun p : ℕ × ℕ => draws p.1 p.2) (result : κ → Nat) :
    ∀ᵐ ω ∂μ, ∃ final, SampleLoop dim draw alloc (fun k i => draws k i ω) 0 ts result final := by
  have key := loop_returns (draw := cutDraw draw) (fun t k => by rw [cutDraw_set]; exact hms t k)
    (fun t r h0 h1 => by rw [cutDraw_of ⟨h0, h1⟩]; exact hok t r h0 h1) (ts := ts) (fun t ht => by
    unfold missSet; rw [cutDraw_set, mass_cut]; exact hm t ht) hal h result
  filter_upwards [key, draws_in_unit h] with ω h1 hω
  obtain ⟨final, hf⟩ := h1
  exact ⟨final, sampleLoop_congr (fun t k i => cutDraw_of (hω k i)) hf⟩

/-- what holds of every number accepted holds of the results -/
theorem loop_prop {rnd : Nat → Nat → ℝ} {Q : κ → Nat → Prop} (hQ : ∀ t k i j, draw t (rnd k i) = .ok j → j ≠ dim → Q t j) {k : Nat} {ts : List κ}
    {result final : κ → Nat} (h : SampleLoop dim draw alloc rnd k ts result final) : ∀ t ∈ ts, Q t (final t) := by
  have hround : ∀ {k i : Nat} {ts next : List κ} {result result' : κ → Nat}, sampleRound dim draw alloc (rnd k) i ts result = .ok (next, result') →
      ∀ t, t ∈ ts → t ∈ next ∨ Q t (result' t) := by
    intro k i ts
    induction ts generalizing i with
    | nil => intro _ _ _ _ t ht; cases ht
    | cons s ts ih =>
      intro next result result' h t ht
      unfold sampleRound at h
      obtain ⟨j, hj, h⟩ := bind_ok h
      by_cases hjd : j = dim
      · rw [if_pos hjd] at h
        obtain ⟨⟨next', res'⟩, h', e⟩ := bind_ok h
        have e := Except.ok.inj e
        simp only [Prod.mk.injEq] at e
        obtain ⟨rfl, rfl⟩ := e
        rcases List.mem_cons.1 ht with rfl | ht
        · exact .inl List.mem_cons_self
        · exact (ih h' t ht).imp_left (List.mem_cons_of_mem _)
      · rw [if_neg hjd] at h
        split at h
        · by_cases hts : t ∈ ts
          · exact ih h t hts
          · rcases List.mem_cons.1 ht with rfl | ht
            · right
              rw [(round_keep h).2 t hts, Function.update_self]
              exact hQ t k i j hj hjd
            · exact absurd ht hts
        · cases h
  induction h with
  | done k result => intro t ht; cases ht
  | step k s todo next result result' final hr hl ih =>
    intro t ht
    by_cases hn : t ∈ next
    · exact ih t hn
    · rw [loop_keep hl t hn]
      exact (hround hr t ht).resolve_left hn

end

/-- the distribution of the list of results when every place uses the same search -/
theorem cut_list_law {Ω : Type*} [MeasurableSpace Ω] {μ : Measure Ω} {draws : ℕ → ℕ → Ω → ℝ} {dim : Nat} {draw : ℝ → Res Nat}
    (hms : ∀ k, MeasurableSet (Set.Ico (0 : ℝ) 1 ∩ {r | draw r = .ok k})) (hm : mass {r | draw r = .ok dim} < 1) {ks : List Nat} (hk : ∀ k ∈ ks, k ≠ dim)
    (h : UniformDraws μ fun p : ℕ × ℕ => draws p.1 p.2) :
    μ.real {ω | ∃ final, SampleLoop dim (fun _ : ℕ => draw) (fun t => decide (t < ks.length)) (fun k i => draws k i ω) 0
        (List.range ks.length) (fun _ => 0) final ∧ ks = (List.range ks.length).map final} =
      (ks.map fun k => mass {r | draw r = .ok k} / (1 - mass {r | draw r = .ok dim})).prod := by
  have hc : ∀ k, {r | cutDraw (fun _ : ℕ => draw) 0 r = .ok k} = Set.Ico (0 : ℝ) 1 ∩ {r | draw r = .ok k} := fun k => cutDraw_set (fun _ : ℕ => draw) 0 k
  have key := list_law (draw := cutDraw (fun _ : ℕ => draw) 0) (fun k => by rw [hc]; exact hms k) (dim := dim) (by rw [hc, mass_cut]; exact hm) hk h
  simp only [hc, mass_cut] at key
  rw [← key]
  refine measureReal_congr ?_
  filter_upwards [draws_in_unit h] with ω hω
  refine propext (?_ : (∃ final, SampleLoop dim (fun _ : ℕ => draw) (fun t => decide (t < ks.length)) (fun k i => draws k i ω) 0
        (List.range ks.length) (fun _ => 0) final ∧ ks = (List.range ks.length).map final) ↔
    ∃ final, SampleLoop dim (fun _ : ℕ => cutDraw (fun _ : ℕ => draw) 0) (fun t => decide (t < ks.length)) (fun k i => draws k i ω) 0
        (List.range ks.length) (fun _ => 0) final ∧ ks = (List.range ks.length).map final)
  refine exists_congr fun final => and_congr ⟨sampleLoop_congr fun t k i => (cutDraw_of (draw := fun _ : ℕ => draw) (hω k i)).symm,
    sampleLoop_congr fun t k i => cutDraw_of (draw := fun _ : ℕ => draw) (hω k i)⟩ Iff.rfl

/-- the distribution of the results of all slots -/
theorem cut_batch_law {Ω : Type*} [MeasurableSpace Ω] {μ : Measure Ω} {draws : ℕ → ℕ → Ω → ℝ} {dim size count : Nat} {draw : ℕ → ℝ → Res Nat}
    (hms : ∀ b k, MeasurableSet (Set.Ico (0 : ℝ) 1 ∩ {r | draw b r = .ok k})) (hm : ∀ b < size, mass {r | draw b r = .ok dim} < 1)
    {k : ℕ → ℕ → ℕ} (hk : ∀ b i, k b i ≠ dim) (h : UniformDraws μ fun p : ℕ × ℕ => draws p.1 p.2) :
    μ.real {ω | ∃ final, SampleLoop dim (fun t : ℕ × ℕ => draw t.1) (fun t => decide (t.1 < size ∧ t.2 < count)) (fun k i => draws k i ω) 0
        ((List.range size).flatMap fun b => (List.range count).map fun j => (b, j)) (fun _ => 0) final ∧
        ((List.range size).map fun b => (List.range count).map fun i => k b i) =
          (List.range size).map fun b => (List.range count).map fun j => final (b, j)} =
      ∏ b ∈ Finset.range size, ∏ i ∈ Finset.range count, (mass {r | draw b r = .ok (k b i)} / (1 - mass {r | draw b r = .ok dim})) := by
  have hmem : ∀ t : ℕ × ℕ, t ∈ ((List.range size).flatMap fun b => (List.range count).map fun j => (b, j)) ↔
      t.1 < size ∧ t.2 < count := by
    rintro ⟨b, j⟩; simp
  have hnd : ((List.range size).flatMap fun b => (List.range count).map fun j => (b, j)).Nodup := by
    rw [List.nodup_flatMap]
    refine ⟨fun b _ => List.nodup_range.map fun a b h => (Prod.ext_iff.1 h).2, ?_⟩
    refine List.Pairwise.imp (fun {a b} hab => ?_) List.nodup_range
    intro x hx hy
    obtain ⟨j, -, rfl⟩ := List.mem_map.1 hx
    obtain ⟨j', -, e⟩ := List.mem_map.1 hy
    exact hab (Prod.ext_iff.1 e).1.symm
  have key := cut_law (μ := μ) (draws := draws) (draw := fun t : ℕ × ℕ => draw t.1)
    (alloc := fun t => decide (t.1 < size ∧ t.2 < count)) (dim := dim)
    (v := fun t => k t.1 t.2) (fun t => hk _ _) (fun t => hms t.1)
    (fun t ht => hm _ ((hmem t).1 ht).1) hnd (fun t ht => by simpa using (hmem t).1 ht) h (fun _ => 0)
  have hset : {ω | ∃ final, SampleLoop dim (fun t : ℕ × ℕ => draw t.1) (fun t => decide (t.1 < size ∧ t.2 < count)) (fun k i => draws k i ω) 0
        ((List.range size).flatMap fun b => (List.range count).map fun j => (b, j)) (fun _ => 0) final ∧
        ((List.range size).map fun b => (List.range count).map fun i => k b i) =
          (List.range size).map fun b => (List.range count).map fun j => final (b, j)} =
      {ω | ∃ final, SampleLoop dim (fun t : ℕ × ℕ => draw t.1) (fun t => decide (t.1 < size ∧ t.2 < count))
        (fun k i => draws k i ω) 0 ((List.range size).flatMap fun b => (List.range count).map fun j => (b, j)) (fun _ => 0) final ∧
        ∀ t ∈ ((List.range size).flatMap fun b => (List.range count).map fun j => (b, j)), final t = k t.1 t.2} := by
    ext ω
    refine exists_congr fun final => and_congr Iff.rfl ?_
    constructor
    · intro e t ht
      obtain ⟨hb, hj⟩ := (hmem t).1 ht
      have := congrArg (fun l => l[t.1]?) e
      simp only [List.getElem?_map, List.getElem?_range hb, Option.map_some, Option.some.injEq] at this
      have := congrArg (fun l => l[t.2]?) this
      simp only [List.getElem?_map, List.getElem?_range hj, Option.map_some, Option.some.injEq] at this
      exact this.symm
    · intro e
      refine List.map_congr_left fun b hb => List.map_congr_left fun i hi => ?_
      exact (e (b, i) ((hmem _).2 ⟨List.mem_range.1 hb, List.mem_range.1 hi⟩)).symm
  rw [hset, key, List.map_flatMap]
  have hprod : ∀ (f : ℕ → ℝ) (m : ℕ), ((List.range m).map f).prod = ∏ i ∈ Finset.range m, f i := by
    intro f m
    induction m with
    | zero => rfl
    | succ m ih => rw [List.range_succ, List.map_append, List.prod_append, ih, Finset.prod_range_succ]; simp
  rw [← hprod]
  generalize List.range size = bs
  induction bs with
  | nil => rfl
  | cons b bs ih =>
    rw [List.flatMap_cons, List.prod_append, ih, List.map_cons, List.prod_cons, List.map_map, ← hprod]
    rfl

/-! ## the search -/

section
variable {F : Type} {gt : F → F → Bool} {lib : FloatLib F} {val : F → ℝ} {Ω : ℝ}

/-- a table whose elements are near the values of `G` -/
structure NearTable (val : F → ℝ) (Ω : ℝ) (s : List F) (N : Nat) (G : Nat → ℝ) (e : ℝ) : Prop where
  length : s.length = N + 1
  range : ∀ x ∈ s, |val x| ≤ Ω
  mono : Monotone G
  zero : G 0 = 0
  near : ∀ i x, s[i + 1]? = some x → |val x - G (i + 1)| ≤ e
  nonneg : 0 ≤ e

theorem searchLoopF_sound (C : Compares lib gt val Ω) {s : List F} {N : Nat} (hl : s.length = N + 1) (hs : ∀ x ∈ s, |val x| ≤ Ω) {r : F} (hr : |val r| ≤ Ω)
    {lo hi : Nat} (h1 : lo < hi) (h2 : hi ≤ N + 1) (hlo : ∀ x, 1 ≤ lo → s[lo]? = some x → val x ≤ val r)
    (hhi : ∀ x, s[hi]? = some x → val r < val x) :
    ∃ k, searchLoopF gt s r lo hi = .ok k ∧ k ≤ N ∧ (∀ x, 1 ≤ k → s[k]? = some x → val x ≤ val r) ∧ ∀ x, s[k + 1]? = some x → val r < val x := by
  induction hd : hi - lo using Nat.strong_induction_on generalizing lo hi with
  | _ d ih =>
    rw [searchLoopF]
    by_cases h : hi - lo > 1
    · rw [dif_pos h]
      have hm : (lo + hi) / 2 < s.length := by omega
      rw [List.getElem?_eq_getElem hm]
      dsimp only
      by_cases hx : gt s[(lo + hi) / 2] r = true
      · rw [if_pos hx]
        refine ih ((lo + hi) / 2 - lo) (by omega) (by omega) (by omega) hlo (fun x hx' => ?_) rfl
        rw [List.getElem?_eq_getElem hm, Option.some.injEq] at hx'
        rw [← hx']
        exact (C.gt _ _ (hs _ (List.getElem_mem _)) hr).1 hx
      · rw [if_neg hx]
        refine ih (hi - (lo + hi) / 2) (by omega) (by omega) h2 (fun x _ hx' => ?_) hhi rfl
        rw [List.getElem?_eq_getElem hm, Option.some.injEq] at hx'
        rw [← hx']
        exact not_lt.1 fun hlt => hx ((C.gt _ _ (hs _ (List.getElem_mem _)) hr).2 hlt)
    · rw [dif_neg h]
      have : hi = lo + 1 := by omega
      subst this
      exact ⟨lo, rfl, by omega, hlo, hhi⟩

theorem drawIndexF_sound (C : Compares lib gt val Ω) {s : List F} {N : Nat} (hl : s.length = N + 1) (hs : ∀ x ∈ s, |val x| ≤ Ω) {r : F} (hr : |val r| ≤ Ω) :
    ∃ k, drawIndexF gt s r = .ok k ∧ k ≤ N ∧ (∀ x, 1 ≤ k → s[k]? = some x → val x ≤ val r) ∧ ∀ x, s[k + 1]? = some x → val r < val x := by
  unfold drawIndexF
  refine searchLoopF_sound C hl hs hr (by omega) (by omega) (fun _ h => by omega) (fun x hx => ?_)
  simp at hx

/-- if the elements up to `k` are not greater than the number and all others are, the search finds `k` -/
theorem drawIndexF_eq (C : Compares lib gt val Ω) {s : List F} {N : Nat} (hl : s.length = N + 1) (hs : ∀ x ∈ s, |val x| ≤ Ω) {r : F} (hr : |val r| ≤ Ω)
    {k : Nat} (hk : k ≤ N) (h1 : ∀ i x, i + 1 ≤ k → s[i + 1]? = some x → val x ≤ val r) (h2 : ∀ i x, k < i + 1 → s[i + 1]? = some x → val r < val x) :
    drawIndexF gt s r = .ok k := by
  obtain ⟨k', e, hk', a, b⟩ := drawIndexF_sound C hl hs hr
  rw [e]
  congr 1
  rcases lt_trichotomy k' k with h | h | h
  · have hx := List.getElem?_eq_getElem (show k' + 1 < s.length by omega)
    exact absurd (h1 k' _ (by omega) hx) (not_le.2 (b _ hx))
  · exact h
  · obtain ⟨j, rfl⟩ : ∃ j, k' = j + 1 := ⟨k' - 1, by omega⟩
    have hx := List.getElem?_eq_getElem (show j + 1 < s.length by omega)
    exact absurd (a _ (by omega) hx) (not_le.2 (h2 j _ h hx))

theorem cast_range {c : ℝ} (hc : ∀ r : ℝ, 0 ≤ r → r < 1 → |val (lib.cast r) - r| ≤ c) (hΩ : 1 + c ≤ Ω) {r : ℝ}
    (h0 : 0 ≤ r) (h1 : r < 1) : |val (lib.cast r)| ≤ Ω := by
  have := hc r h0 h1
  rw [abs_le] at this ⊢
  constructor <;> linarith

theorem searchLoopF_measurable (C : Compares lib gt val Ω) {s : List F} (hs : ∀ x ∈ s, |val x| ≤ Ω)
    (hr : ∀ r : ℝ, 0 ≤ r → r < 1 → |val (lib.cast r)| ≤ Ω) (k lo hi : Nat) :
    MeasurableSet (Set.Ico (0 : ℝ) 1 ∩ {r | searchLoopF gt s (lib.cast r) lo hi = .ok k}) := by
  induction hd : hi - lo using Nat.strong_induction_on generalizing lo hi with
  | _ d ih =>
    by_cases h : hi - lo > 1
    · have e : ∀ r : ℝ, searchLoopF gt s (lib.cast r) lo hi = (match s[(lo + hi) / 2]? with
          | none => (.error (.ub "stacked_prob out of range") : Res Nat)
          | some x => if gt x (lib.cast r) then searchLoopF gt s (lib.cast r) lo ((lo + hi) / 2)
            else searchLoopF gt s (lib.cast r) ((lo + hi) / 2) hi) := by
        intro r
        rw [searchLoopF, dif_pos h]
        rfl
      simp only [e]
      cases hx : s[(lo + hi) / 2]? with
      | none => simp
      | some x =>
        have hxs : |val x| ≤ Ω := hs _ (List.mem_of_getElem? hx)
        have e2 : Set.Ico (0 : ℝ) 1 ∩ {r | (if gt x (lib.cast r) then searchLoopF gt s (lib.cast r) lo ((lo + hi) / 2)
              else searchLoopF gt s (lib.cast r) ((lo + hi) / 2) hi) = .ok k} =
            ({r | r ∈ Set.Ico (0 : ℝ) 1 ∧ val (lib.cast r) < val x} ∩ (Set.Ico (0 : ℝ) 1 ∩ {r | searchLoopF gt s (lib.cast r) lo ((lo + hi) / 2) = .ok k})) ∪
            ((Set.Ico (0 : ℝ) 1 ∩ {r | searchLoopF gt s (lib.cast r) ((lo + hi) / 2) hi = .ok k}) \
              {r | r ∈ Set.Ico (0 : ℝ) 1 ∧ val (lib.cast r) < val x}) := by
          ext r
          simp only [Set.mem_ofPred_eq, Set.mem_union, Set.mem_inter_iff, Set.mem_sdiff]
          by_cases hu : r ∈ Set.Ico (0 : ℝ) 1
          · have hg := C.gt x (lib.cast r) hxs (hr r hu.1 hu.2)
            by_cases hlt : val (lib.cast r) < val x
            · simp [hu, hlt, hg.2 hlt]
            · have hg' : gt x (lib.cast r) = false := Bool.eq_false_iff.2 fun h => hlt (hg.1 h)
              simp [hu, hlt, hg']
          · simp [hu]
        have hm : MeasurableSet {r | r ∈ Set.Ico (0 : ℝ) 1 ∧ val (lib.cast r) < val x} := by
          refine Set.OrdConnected.measurableSet ⟨?_⟩
          rintro a ⟨ha, -⟩ b ⟨hb, hb'⟩ c ⟨hc1, hc2⟩
          exact ⟨⟨ha.1.trans hc1, hc2.trans_lt hb.2⟩, lt_of_le_of_lt (C.cast c b (ha.1.trans hc1) hc2 hb.2.le) hb'⟩
        show MeasurableSet (Set.Ico (0 : ℝ) 1 ∩ {r | (if gt x (lib.cast r) then searchLoopF gt s (lib.cast r) lo ((lo + hi) / 2)
              else searchLoopF gt s (lib.cast r) ((lo + hi) / 2) hi) = .ok k})
        rw [e2]
        exact (hm.inter (ih _ (by omega) _ _ rfl)).union ((ih _ (by omega) _ _ rfl).diff hm)
    · have e : ∀ r : ℝ, searchLoopF gt s (lib.cast r) lo hi = .ok lo := by
        intro r
        rw [searchLoopF, dif_neg h]
      simp only [e]
      exact measurableSet_Ico.inter (MeasurableSet.const _)

/-! ## the probabilities -/

theorem mass_le {S : Set ℝ} {a b : ℝ} (hab : a ≤ b) (h : ∀ r, 0 ≤ r → r < 1 → r ∈ S → a ≤ r ∧ r < b) : mass S ≤ b - a := by
  have h1 : mass S ≤ mass (Set.Ico a b) := by
    rw [← mass_cut]
    exact measureReal_mono (fun r hr => h r hr.1.1 hr.1.2 hr.2) (measure_ne_top _ _)
  refine h1.trans ?_
  rw [mass, measureReal_restrict_apply measurableSet_Ico]
  refine (measureReal_mono Set.inter_subset_left (by simp)).trans ?_
  rw [Real.volume_real_Ico_of_le hab]

theorem mass_ge {S : Set ℝ} {a b : ℝ} (ha : 0 ≤ a) (hb : b ≤ 1) (h : ∀ r, 0 ≤ r → r < 1 → a ≤ r → r < b → r ∈ S) : b - a ≤ mass S := by
  rcases le_total b a with hba | hab
  · have : 0 ≤ mass S := measureReal_nonneg
    linarith
  · rw [← mass_Ico ha hab hb, ← mass_cut S]
    exact measureReal_mono (fun r hr => ⟨⟨ha.trans hr.1, hr.2.trans_le hb⟩, h r (ha.trans hr.1) (hr.2.trans_le hb) hr.1 hr.2⟩) (measure_ne_top _ _)

/-- the numbers for which the search finds `k` -/
def drawSet (lib : FloatLib F) (gt : F → F → Bool) (s : List F) (k : Nat) : Set ℝ := {r | drawIndexF gt s (lib.cast r) = .ok k}

variable {s : List F} {N : Nat} {G : Nat → ℝ} {e c δ : ℝ}

theorem mass_draw (C : Compares lib gt val Ω) (T : NearTable val Ω s N G e) (hc : ∀ r : ℝ, 0 ≤ r → r < 1 → |val (lib.cast r) - r| ≤ c)
    (hΩ : 1 + c ≤ Ω) (hc0 : 0 ≤ c) (hδ : |G N - 1| ≤ δ) {k : Nat} (hk : k < N) :
    |mass (drawSet lib gt s k) - (G (k + 1) - G k)| ≤ 2 * (e + c) + δ := by
  have hδ0 := (abs_nonneg _).trans hδ
  have he := T.nonneg
  have hG : G k ≤ G (k + 1) := T.mono (Nat.le_succ k)
  have hG1 : G (k + 1) ≤ 1 + δ := by
    have := T.mono (show k + 1 ≤ N from hk)
    have := (abs_le.1 hδ).2
    linarith
  have hk0 : 0 ≤ G k := by rw [← T.zero]; exact T.mono (Nat.zero_le k)
  rw [abs_le]
  constructor
  · have h := mass_ge (S := drawSet lib gt s k) (a := G k + (e + c)) (b := min (G (k + 1) - (e + c)) 1) (by linarith) (min_le_right _ _) (by
      intro r h0 h1 ha hb
      have hr := abs_le.1 (hc r h0 h1)
      refine drawIndexF_eq C T.length T.range (cast_range hc hΩ h0 h1) hk.le ?_ ?_
      · intro i x hi hx
        have h1 := abs_le.1 (T.near i x hx)
        have h2 := T.mono hi
        linarith
      · intro i x hi hx
        have h1 := abs_le.1 (T.near i x hx)
        have h2 := T.mono (show k + 1 ≤ i + 1 from hi)
        have := hb.trans_le (min_le_left _ _)
        linarith)
    have : G (k + 1) - (e + c) - δ ≤ min (G (k + 1) - (e + c)) 1 := le_min (by linarith) (by linarith)
    linarith
  · have h := mass_le (S := drawSet lib gt s k) (a := G k - (e + c)) (b := G (k + 1) + (e + c)) (by linarith) (by
      intro r h0 h1 hr
      have hcr := abs_le.1 (hc r h0 h1)
      obtain ⟨k', hk', -, a, b⟩ := drawIndexF_sound C T.length T.range (cast_range hc hΩ h0 h1)
      have hr : drawIndexF gt s (lib.cast r) = .ok k := hr
      rw [hr] at hk'
      obtain rfl := Except.ok.inj hk'
      constructor
      · cases k with
        | zero => rw [T.zero]; linarith
        | succ j =>
          have hx := List.getElem?_eq_getElem (show j + 1 < s.length by rw [T.length]; omega)
          have h1 := a _ (by omega) hx
          have h2 := abs_le.1 (T.near j _ hx)
          linarith
      · have hx := List.getElem?_eq_getElem (show k + 1 < s.length by rw [T.length]; omega)
        have h1 := b _ hx
        have h2 := abs_le.1 (T.near k _ hx)
        linarith)
    linarith

theorem mass_redraw (C : Compares lib gt val Ω) (T : NearTable val Ω s N G e) (hc : ∀ r : ℝ, 0 ≤ r → r < 1 → |val (lib.cast r) - r| ≤ c)
    (hΩ : 1 + c ≤ Ω) (hc0 : 0 ≤ c) (hδ : |G N - 1| ≤ δ) (hN : 1 ≤ N) : mass (drawSet lib gt s N) ≤ e + c + δ := by
  have he := T.nonneg
  have hδ0 := (abs_nonneg _).trans hδ
  have hd := abs_le.1 hδ
  have h := mass_le (S := drawSet lib gt s N) (a := min (G N - (e + c)) 1) (b := 1) (min_le_right _ _) (by
    intro r h0 h1 hr
    refine ⟨(min_le_left _ _).trans ?_, h1⟩
    have hcr := abs_le.1 (hc r h0 h1)
    obtain ⟨k', hk', -, a, b⟩ := drawIndexF_sound C T.length T.range (cast_range hc hΩ h0 h1)
    have hr : drawIndexF gt s (lib.cast r) = .ok N := hr
    rw [hr] at hk'
    obtain rfl := Except.ok.inj hk'
    obtain ⟨j, rfl⟩ : ∃ j, N = j + 1 := ⟨N - 1, by omega⟩
    have hx := List.getElem?_eq_getElem (show j + 1 < s.length by rw [T.length]; omega)
    have h1 := a _ (by omega) hx
    have h2 := abs_le.1 (T.near j _ hx)
    linarith)
  have : 1 - (e + c + δ) ≤ min (G N - (e + c)) 1 := le_min (by linarith) (by linarith)
  linarith

theorem drawSet_measurable (C : Compares lib gt val Ω) (T : NearTable val Ω s N G e) (hc : ∀ r : ℝ, 0 ≤ r → r < 1 → |val (lib.cast r) - r| ≤ c)
    (hΩ : 1 + c ≤ Ω) (k : Nat) : MeasurableSet (Set.Ico (0 : ℝ) 1 ∩ drawSet lib gt s k) :=
  searchLoopF_measurable C T.range (fun _ h0 h1 => cast_range hc hΩ h0 h1) k 0 s.length

theorem mass_total (C : Compares lib gt val Ω) (T : NearTable val Ω s N G e) (hc : ∀ r : ℝ, 0 ≤ r → r < 1 → |val (lib.cast r) - r| ≤ c)
    (hΩ : 1 + c ≤ Ω) : ∑ k ∈ Finset.range (N + 1), mass (drawSet lib gt s k) = 1 := by
  have : IsProbabilityMeasure (volume.restrict (Set.Ico (0 : ℝ) 1)) := ⟨by simp⟩
  have h := measureReal_biUnion_finset (μ := volume.restrict (Set.Ico (0 : ℝ) 1)) (s := Finset.range (N + 1))
    (f := fun k => Set.Ico (0 : ℝ) 1 ∩ drawSet lib gt s k) (by
      intro a _ b _ hab
      refine Set.disjoint_left.2 fun r h1 h2 => hab ?_
      have h1 : drawIndexF gt s (lib.cast r) = .ok a := h1.2
      have h2 : drawIndexF gt s (lib.cast r) = .ok b := h2.2
      rw [h1] at h2
      exact Except.ok.inj h2) (fun k _ => drawSet_measurable C T hc hΩ k)
  have e1 : (volume.restrict (Set.Ico (0 : ℝ) 1)).real (⋃ k ∈ Finset.range (N + 1), Set.Ico (0 : ℝ) 1 ∩ drawSet lib gt s k) = 1 := by
    refine Eq.trans (measureReal_congr (t := Set.univ) ?_) (probReal_univ (μ := volume.restrict (Set.Ico (0 : ℝ) 1)))
    filter_upwards [ae_restrict_mem measurableSet_Ico] with r hr
    refine propext ⟨fun _ => trivial, fun _ => ?_⟩
    obtain ⟨k, hk, hk', -⟩ := drawIndexF_sound C T.length T.range (cast_range hc hΩ hr.1 hr.2)
    refine Set.mem_biUnion (show k ∈ (Finset.range (N + 1) : Set ℕ) from ?_) ⟨hr, hk⟩
    simp; omega
  rw [e1] at h
  rw [h]
  exact Finset.sum_congr rfl fun k _ => (mass_cut _).symm

/-- the probability of index `k` when rejected numbers are drawn again -/
noncomputable def drawProb (lib : FloatLib F) (gt : F → F → Bool) (s : List F) (N k : Nat) : ℝ :=
  mass (drawSet lib gt s k) / (1 - mass (drawSet lib gt s N))

theorem drawProb_facts (C : Compares lib gt val Ω) (T : NearTable val Ω s N G e) (hc : ∀ r : ℝ, 0 ≤ r → r < 1 → |val (lib.cast r) - r| ≤ c)
    (hΩ : 1 + c ≤ Ω) (hc0 : 0 ≤ c) (hδ : |G N - 1| ≤ δ) (hN : 1 ≤ N) (hs : e + c + δ ≤ 1 / 2) :
    mass (drawSet lib gt s N) ≤ 1 / 2 ∧ (∀ k, 0 ≤ drawProb lib gt s N k) ∧ ∑ k ∈ Finset.range N, drawProb lib gt s N k = 1 ∧
    ∀ k, k < N → |drawProb lib gt s N k - (G (k + 1) - G k)| ≤ 7 * (e + c + δ) := by
  have hm := mass_redraw C T hc hΩ hc0 hδ hN
  have hm0 : 0 ≤ mass (drawSet lib gt s N) := measureReal_nonneg
  have he := T.nonneg
  have hδ0 := (abs_nonneg _).trans hδ
  refine ⟨hm.trans hs, fun k => div_nonneg measureReal_nonneg (by linarith), ?_, fun k hk => ?_⟩
  · have h := mass_total C T hc hΩ
    rw [Finset.sum_range_succ] at h
    unfold drawProb
    rw [← Finset.sum_div, div_eq_one_iff_eq (by linarith)]
    linarith
  · have h := mass_draw C T hc hΩ hc0 hδ hk
    have hG1 : G (k + 1) ≤ 1 + δ := by
      have := T.mono (show k + 1 ≤ N from hk)
      have := (abs_le.1 hδ).2
      linarith
    have hk0 : 0 ≤ G k := by rw [← T.zero]; exact T.mono (Nat.zero_le k)
    have hG : G k ≤ G (k + 1) := T.mono (Nat.le_succ k)
    set p := G (k + 1) - G k
    set a := mass (drawSet lib gt s k)
    set b := mass (drawSet lib gt s N)
    have hp0 : 0 ≤ p := sub_nonneg.2 hG
    have hp1 : p ≤ 3 / 2 := by show G (k + 1) - G k ≤ _; linarith
    have hb1 : 0 < 1 - b := by linarith
    have e1 : drawProb lib gt s N k - p = (a - p + p * b) / (1 - b) := by
      show a / (1 - b) - p = _
      have := hb1.ne'
      field_simp
      ring
    rw [e1, abs_div, abs_of_pos hb1, div_le_iff₀ hb1]
    have h1 : |a - p + p * b| ≤ 2 * (e + c) + δ + 3 / 2 * (e + c + δ) := by
      refine (abs_add_le _ _).trans (add_le_add h ?_)
      rw [abs_of_nonneg (mul_nonneg hp0 hm0)]
      exact mul_le_mul hp1 hm hm0 (by norm_num)
    have h2 : 7 * (e + c + δ) * (1 / 2) ≤ 7 * (e + c + δ) * (1 - b) := mul_le_mul_of_nonneg_left (by linarith) (by linarith)
    linarith

end

end Verif.Proofs
