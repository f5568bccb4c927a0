import Verif.Proofs.Rejection
import Verif.Proofs.Sampling

/-! # The distribution of the samples -/

namespace Verif.Proofs
open Verif Verif.Spec Verif.Model MeasureTheory ProbabilityTheory Filter
attribute [-simp] BitVec.getLsbD_eq_getElem

section
variable {κ : Type} [DecidableEq κ] {dim : Nat} {draw : κ → ℝ → Res Nat} {alloc : κ → Bool} {v : κ → Nat}

/-- the random numbers that give place `t` the index `v t` -/
def hitSet (draw : κ → ℝ → Res Nat) (v : κ → Nat) (t : κ) : Set ℝ := {r | draw t r = .ok (v t)}

/-- the random numbers that are rejected for place `t` -/
def missSet (draw : κ → ℝ → Res Nat) (dim : Nat) (t : κ) : Set ℝ := {r | draw t r = .ok dim}

theorem boxHolds_cons {ι : Type*} {c : ι × Set ℝ} {B : List (ι × Set ℝ)} {r : ι → ℝ} :
    BoxHolds (c :: B) r ↔ r c.1 ∈ c.2 ∧ BoxHolds B r := by simp [BoxHolds]

theorem boxHolds_append {ι : Type*} {A B : List (ι × Set ℝ)} {r : ι → ℝ} : BoxHolds (A ++ B) r ↔ BoxHolds A r ∧ BoxHolds B r := by
  simp only [BoxHolds, List.mem_append]
  exact ⟨fun h => ⟨fun c hc => h c (.inl hc), fun c hc => h c (.inr hc)⟩, fun h c hc => hc.elim (h.1 c) (h.2 c)⟩

theorem round_keep {rnd : Nat → ℝ} {i : Nat} {ts next : List κ} {result result' : κ → Nat}
    (h : sampleRound dim draw alloc rnd i ts result = .ok (next, result')) : next.Sublist ts ∧ ∀ t, t ∉ ts → result' t = result t := by
  induction ts generalizing i result next with
  | nil =>
    simp only [sampleRound, Except.ok.injEq, Prod.mk.injEq] at h
    obtain ⟨rfl, rfl⟩ := h
    exact ⟨.refl _, fun _ _ => rfl⟩
  | cons t ts ih =>
    unfold sampleRound at h
    obtain ⟨j, hj, h⟩ := bind_ok h
    by_cases hjd : j = dim
    · rw [if_pos hjd] at h
      obtain ⟨⟨next', res'⟩, h', e⟩ := bind_ok h
      have e := Except.ok.inj e
      simp only [Prod.mk.injEq] at e
      obtain ⟨rfl, rfl⟩ := e
      obtain ⟨h1, h2⟩ := ih h'
      exact ⟨h1.cons_cons t, fun s hs => h2 s fun hm => hs (List.mem_cons_of_mem _ hm)⟩
    · rw [if_neg hjd] at h
      split at h
      · obtain ⟨h1, h2⟩ := ih h
        refine ⟨h1.cons t, fun s hs => ?_⟩
        rw [h2 s fun hm => hs (List.mem_cons_of_mem _ hm), Function.update_of_ne fun e => hs (by simp [e])]
      · cases h

theorem loop_keep {rnd : Nat → Nat → ℝ} {k : Nat} {ts : List κ} {result final : κ → Nat}
    (h : SampleLoop dim draw alloc rnd k ts result final) : ∀ t, t ∉ ts → final t = result t := by
  induction h with
  | done k result => intro _ _; rfl
  | step k t todo next result result' final hround _ ih =>
    obtain ⟨h1, h2⟩ := round_keep hround
    intro s hs
    rw [ih s fun hm => hs (h1.subset hm), h2 s hs]

/-- a box of round `k` tells what the round does -/
theorem round_of_choice (hv : ∀ t, v t ≠ dim) {r : ℕ → ℕ → ℝ} {k i : Nat} {ts : List κ}
    (hnd : ts.Nodup) (hal : ∀ t ∈ ts, alloc t = true) {p : Box × List κ} (hp : p ∈ choices (hitSet draw v) (missSet draw dim) k i ts)
    (hh : BoxHolds p.1 fun q => r q.1 q.2) (result : κ → Nat) :
    sampleRound dim draw alloc (r k) i ts result = .ok (p.2, fun t => if t ∈ ts ∧ t ∉ p.2 then v t else result t) := by
  induction ts generalizing i result p with
  | nil => obtain rfl := List.mem_singleton.1 hp; simp [sampleRound]
  | cons t ts ih =>
    obtain ⟨hnt, hnd'⟩ := List.nodup_cons.1 hnd
    obtain ⟨q, hq, hp⟩ := List.mem_flatMap.1 hp
    have hsub := choices_sublist hq
    have htq : t ∉ q.2 := fun h => hnt (hsub.subset h)
    simp only [List.mem_cons, List.not_mem_nil, or_false] at hp
    rcases hp with rfl | rfl
    · obtain ⟨h1, h2⟩ := boxHolds_cons.1 hh
      have hk : draw t (r k i) = .ok (v t) := h1
      unfold sampleRound
      rw [hk, ok_bind, if_neg (hv t), if_pos (hal t (by simp)), ih hnd' (fun s hs => hal s (by simp [hs])) hq h2]
      congr 2
      funext s
      by_cases hs : s = t
      · subst hs
        simp [hnt, htq]
      · simp [hs]
    · obtain ⟨h1, h2⟩ := boxHolds_cons.1 hh
      have hk : draw t (r k i) = .ok dim := h1
      unfold sampleRound
      rw [hk, ok_bind, if_pos rfl, ih hnd' (fun s hs => hal s (by simp [hs])) hq h2]
      show Except.ok _ = Except.ok _
      congr 2
      funext s
      by_cases hs : s = t
      · subst hs
        simp [hnt]
      · simp [hs]

/-- the draws of a round lie in one of the boxes -/
theorem choice_of_round {r : ℕ → ℕ → ℝ} {k i : Nat} {ts : List κ} (hnd : ts.Nodup) {result result' : κ → Nat} {next : List κ}
    (h : sampleRound dim draw alloc (r k) i ts result = .ok (next, result')) (hres : ∀ t ∈ ts, t ∉ next → result' t = v t) :
    ∃ p ∈ choices (hitSet draw v) (missSet draw dim) k i ts, p.2 = next ∧ BoxHolds p.1 fun q => r q.1 q.2 := by
  induction ts generalizing i result next with
  | nil =>
    simp only [sampleRound, Except.ok.injEq, Prod.mk.injEq] at h
    exact ⟨([], []), by simp [choices], h.1, by simp [BoxHolds]⟩
  | cons t ts ih =>
    obtain ⟨hnt, hnd'⟩ := List.nodup_cons.1 hnd
    unfold sampleRound at h
    obtain ⟨j, hj, h⟩ := bind_ok h
    by_cases hjd : j = dim
    · rw [if_pos hjd] at h
      obtain ⟨⟨next', res'⟩, h', e⟩ := bind_ok h
      have e := Except.ok.inj e
      simp only [Prod.mk.injEq] at e
      obtain ⟨rfl, rfl⟩ := e
      obtain ⟨p, hp, rfl, hh⟩ := ih hnd' h' (fun s hs hns => hres s (by simp [hs])
        (fun hm => (List.mem_cons.1 hm).elim (fun e => hnt (e ▸ hs)) hns))
      refine ⟨(((k, i), missSet draw dim t) :: p.1, t :: p.2), List.mem_flatMap.2 ⟨p, hp, by simp⟩, rfl, boxHolds_cons.2 ⟨?_, hh⟩⟩
      rw [hjd] at hj
      exact hj
    · rw [if_neg hjd] at h
      split at h
      · obtain ⟨hsub, hkeep⟩ := round_keep h
        have htn : t ∉ next := fun hm => hnt (hsub.subset hm)
        have hvt : v t = j := by
          rw [← hres t (by simp) htn, hkeep t hnt, Function.update_self]
        obtain ⟨p, hp, rfl, hh⟩ := ih hnd' h (fun s hs hns => hres s (by simp [hs]) hns)
        refine ⟨(((k, i), hitSet draw v t) :: p.1, p.2), List.mem_flatMap.2 ⟨p, hp, by simp⟩, rfl, boxHolds_cons.2 ⟨?_, hh⟩⟩
        rw [← hvt] at hj
        exact hj
      · cases h

theorem loop_of_box (hv : ∀ t, v t ≠ dim) {r : ℕ → ℕ → ℝ} {R k : Nat} {ts : List κ}
    (hnd : ts.Nodup) (hal : ∀ t ∈ ts, alloc t = true) {B : Box} (hB : B ∈ boxes (hitSet draw v) (missSet draw dim) R k ts)
    (hh : BoxHolds B fun q => r q.1 q.2) (result : κ → Nat) :
    SampleLoop dim draw alloc r k ts result (fun t => if t ∈ ts then v t else result t) := by
  have key : ∀ {k : Nat} (result : κ → Nat), SampleLoop dim draw alloc r k [] result
      (fun t => if t ∈ ([] : List κ) then v t else result t) := by
    intro k result
    simp only [List.not_mem_nil, if_false]
    exact .done _ _
  induction R generalizing k ts B result with
  | zero =>
    cases ts with
    | nil => exact key result
    | cons t ts => simp [boxes] at hB
  | succ R ih =>
    cases ts with
    | nil => exact key result
    | cons t ts =>
      obtain ⟨p, hp, hB⟩ := List.mem_flatMap.1 hB
      obtain ⟨C, hC, rfl⟩ := List.mem_map.1 hB
      obtain ⟨h1, h2⟩ := boxHolds_append.1 hh
      have hsub := choices_sublist hp
      have hround := round_of_choice hv hnd hal hp h1 result
      have hrest := ih (hsub.nodup hnd) (fun s hs => hal s (hsub.subset hs)) hC h2
        (fun s => if s ∈ t :: ts ∧ s ∉ p.2 then v s else result s)
      have e : (fun s => if s ∈ p.2 then v s else if s ∈ t :: ts ∧ s ∉ p.2 then v s else result s) =
          fun s => if s ∈ t :: ts then v s else result s := by
        funext s
        by_cases h1 : s ∈ p.2
        · rw [if_pos h1, if_pos (hsub.subset h1)]
        · by_cases h2 : s ∈ t :: ts
          · rw [if_neg h1, if_pos ⟨h2, h1⟩, if_pos h2]
          · rw [if_neg h1, if_neg (fun h => h2 h.1), if_neg h2]
      rw [e] at hrest
      exact .step _ _ _ _ _ _ _ hround hrest

theorem box_of_loop {r : ℕ → ℕ → ℝ} {k : Nat} {ts : List κ} (hnd : ts.Nodup) {result final : κ → Nat}
    (h : SampleLoop dim draw alloc r k ts result final) (hf : ∀ t ∈ ts, final t = v t) :
    ∃ R, ∃ B ∈ boxes (hitSet draw v) (missSet draw dim) R k ts, BoxHolds B fun q => r q.1 q.2 := by
  induction h with
  | done k result => exact ⟨0, [], by simp [boxes], by simp [BoxHolds]⟩
  | step k t todo next result result' final hround hloop ih =>
    obtain ⟨hsub, -⟩ := round_keep hround
    obtain ⟨R, B, hB, hh⟩ := ih (hsub.nodup hnd) (fun s hs => hf s (hsub.subset hs))
    have hkeep := loop_keep hloop
    obtain ⟨p, hp, rfl, hh'⟩ := choice_of_round hnd hround (fun s hs hns => by rw [← hkeep s hns, hf s hs])
    exact ⟨R + 1, p.1 ++ B, List.mem_flatMap.2 ⟨p, hp, List.mem_map.2 ⟨B, hB, rfl⟩⟩, boxHolds_append.2 ⟨hh', hh⟩⟩

variable {Ω : Type*} [MeasurableSpace Ω] {μ : Measure Ω} {draws : ℕ → ℕ → Ω → ℝ}

/-- the distribution of the results of the sampling loop -/
theorem loop_law (hv : ∀ t, v t ≠ dim) (hms : ∀ t k, MeasurableSet {r | draw t r = .ok k}) {ts : List κ}
    (hm : ∀ t ∈ ts, mass (missSet draw dim t) < 1) (hnd : ts.Nodup)
    (hal : ∀ t ∈ ts, alloc t = true) (h : UniformDraws μ fun p : ℕ × ℕ => draws p.1 p.2) (result : κ → Nat) :
    μ.real {ω | ∃ final, SampleLoop dim draw alloc (fun k i => draws k i ω) 0 ts result final ∧ ∀ t ∈ ts, final t = v t} =
      (ts.map fun t => mass (hitSet draw v t) / (1 - mass (missSet draw dim t))).prod := by
  have hset : {ω | ∃ final, SampleLoop dim draw alloc (fun k i => draws k i ω) 0 ts result final ∧ ∀ t ∈ ts, final t = v t} =
      {ω | ∃ R, ∃ B ∈ boxes (hitSet draw v) (missSet draw dim) R 0 ts, BoxHolds B (fun p => draws p.1 p.2 ω)} := by
    ext ω
    constructor
    · rintro ⟨final, hl, hf⟩
      exact box_of_loop (r := fun k i => draws k i ω) hnd hl hf
    · rintro ⟨R, B, hB, hh⟩
      refine ⟨_, loop_of_box (r := fun k i => draws k i ω) hv hnd hal hB hh result, fun t ht => if_pos ht⟩
  rw [hset, rounds_prob (hit := hitSet draw v) (miss := missSet draw dim) h _ (fun t => ⟨hms t _, hms t _⟩) hm]
  intro t
  refine Set.disjoint_left.2 fun r h1 h2 => ?_
  have h1 : draw t r = .ok (v t) := h1
  have h2 : draw t r = .ok dim := h2
  rw [h1] at h2
  exact hv t (Except.ok.inj h2)

/-! ## termination -/

/-- the random numbers that are accepted for place `t` -/
def acceptSet (draw : κ → ℝ → Res Nat) (dim : Nat) (t : κ) : Set ℝ := {r | ∃ k, k ≠ dim ∧ draw t r = .ok k}

theorem round_of_accept {r : ℕ → ℕ → ℝ} {k i : Nat} {ts : List κ}
    (hal : ∀ t ∈ ts, alloc t = true) {p : Box × List κ} (hp : p ∈ choices (acceptSet draw dim) (missSet draw dim) k i ts)
    (hh : BoxHolds p.1 fun q => r q.1 q.2) (result : κ → Nat) :
    ∃ result', sampleRound dim draw alloc (r k) i ts result = .ok (p.2, result') := by
  induction ts generalizing i result p with
  | nil => obtain rfl := List.mem_singleton.1 hp; exact ⟨_, rfl⟩
  | cons t ts ih =>
    obtain ⟨q, hq, hp⟩ := List.mem_flatMap.1 hp
    have hal' : ∀ s ∈ ts, alloc s = true := fun s hs => hal s (by simp [hs])
    simp only [List.mem_cons, List.not_mem_nil, or_false] at hp
    rcases hp with rfl | rfl
    · obtain ⟨⟨j, hlt, hj⟩, h2⟩ := boxHolds_cons.1 hh
      obtain ⟨res, e⟩ := ih hal' hq h2 (Function.update result t j)
      refine ⟨res, ?_⟩
      unfold sampleRound
      rw [hj, ok_bind, if_neg hlt, if_pos (hal t (by simp)), e]
    · obtain ⟨h1, h2⟩ := boxHolds_cons.1 hh
      have hk : draw t (r k i) = .ok dim := h1
      obtain ⟨res, e⟩ := ih hal' hq h2 result
      refine ⟨res, ?_⟩
      unfold sampleRound
      rw [hk, ok_bind, if_pos rfl, e]
      rfl

theorem loop_of_accept {r : ℕ → ℕ → ℝ} {R k : Nat} {ts : List κ}
    (hal : ∀ t ∈ ts, alloc t = true) {B : Box} (hB : B ∈ boxes (acceptSet draw dim) (missSet draw dim) R k ts)
    (hh : BoxHolds B fun q => r q.1 q.2) (result : κ → Nat) :
    ∃ final, SampleLoop dim draw alloc r k ts result final := by
  induction R generalizing k ts B result with
  | zero =>
    cases ts with
    | nil => exact ⟨_, .done _ _⟩
    | cons t ts => simp [boxes] at hB
  | succ R ih =>
    cases ts with
    | nil => exact ⟨_, .done _ _⟩
    | cons t ts =>
      obtain ⟨p, hp, hB⟩ := List.mem_flatMap.1 hB
      obtain ⟨C, hC, rfl⟩ := List.mem_map.1 hB
      obtain ⟨h1, h2⟩ := boxHolds_append.1 hh
      have hsub := choices_sublist hp
      obtain ⟨result', hround⟩ := round_of_accept hal hp h1 result
      obtain ⟨final, hrest⟩ := ih (fun s hs => hal s (hsub.subset hs)) hC h2 result'
      exact ⟨final, .step _ _ _ _ _ _ _ hround hrest⟩

theorem mass_accept (hms : ∀ t k, MeasurableSet {r | draw t r = .ok k}) {t : κ} (hok : ∀ r : ℝ, 0 ≤ r → r < 1 → ∃ k, draw t r = .ok k) :
    MeasurableSet (acceptSet draw dim t) ∧ mass (acceptSet draw dim t) = 1 - mass (missSet draw dim t) := by
  have : IsProbabilityMeasure (volume.restrict (Set.Ico (0 : ℝ) 1)) := ⟨by simp⟩
  have hm : MeasurableSet (acceptSet draw dim t) := by
    have : acceptSet draw dim t = ⋃ k ∈ {k | k ≠ dim}, {r | draw t r = .ok k} := by
      ext r; simp [acceptSet]
    rw [this]
    exact MeasurableSet.biUnion (Set.to_countable _) fun k _ => hms t k
  refine ⟨hm, ?_⟩
  have hc := probReal_compl_eq_one_sub (μ := volume.restrict (Set.Ico (0 : ℝ) 1)) (hms t dim)
  rw [mass, mass, missSet, ← hc]
  refine measureReal_congr ?_
  filter_upwards [ae_restrict_mem measurableSet_Ico] with r hr
  refine propext (?_ : r ∈ acceptSet draw dim t ↔ ¬ draw t r = .ok dim)
  constructor
  · rintro ⟨k, hk, e⟩ e'
    rw [e] at e'
    exact hk (Except.ok.inj e')
  · intro hne
    obtain ⟨k, hk⟩ := hok r hr.1 hr.2
    exact ⟨k, fun e => hne (e ▸ hk), hk⟩

theorem loop_returns (hms : ∀ t k, MeasurableSet {r | draw t r = .ok k}) (hok : ∀ t, ∀ r : ℝ, 0 ≤ r → r < 1 → ∃ k, draw t r = .ok k)
    {ts : List κ} (hm : ∀ t ∈ ts, mass (missSet draw dim t) < 1)
    (hal : ∀ t ∈ ts, alloc t = true) (h : UniformDraws μ fun p : ℕ × ℕ => draws p.1 p.2) (result : κ → Nat) :
    ∀ᵐ ω ∂μ, ∃ final, SampleLoop dim draw alloc (fun k i => draws k i ω) 0 ts result final := by
  have hprob := key_prob h
  have hmm : ∀ t, MeasurableSet (acceptSet draw dim t) ∧ MeasurableSet (missSet draw dim t) :=
    fun t => ⟨(mass_accept hms (hok t)).1, hms t _⟩
  have hone := rounds_prob (hit := acceptSet draw dim) (miss := missSet draw dim) h (by
    intro t
    refine Set.disjoint_left.2 fun r h1 h2 => ?_
    obtain ⟨k, hk, e⟩ := h1
    have h2 : draw t r = .ok dim := h2
    rw [e] at h2
    exact hk (Except.ok.inj h2)) hmm hm
  have hval : (ts.map fun t => mass (acceptSet draw dim t) / (1 - mass (missSet draw dim t))).prod = 1 := by
    refine List.prod_eq_one fun x hx => ?_
    obtain ⟨t, ht, rfl⟩ := List.mem_map.1 hx
    rw [(mass_accept hms (hok t)).2, div_self]
    linarith [hm t ht]
  rw [hval] at hone
  have hae : ∀ᵐ ω ∂μ, ∃ R, ∃ B ∈ boxes (acceptSet draw dim) (missSet draw dim) R 0 ts, BoxHolds B (fun p => draws p.1 p.2 ω) := by
    have hm : MeasurableSet {ω | ∃ R, ∃ B ∈ boxes (acceptSet draw dim) (missSet draw dim) R 0 ts, BoxHolds B (fun p => draws p.1 p.2 ω)} := by
      have : {ω | ∃ R, ∃ B ∈ boxes (acceptSet draw dim) (missSet draw dim) R 0 ts, BoxHolds B (fun p => draws p.1 p.2 ω)} =
          ⋃ R, ⋃ B ∈ {B | B ∈ boxes (acceptSet draw dim) (missSet draw dim) R 0 ts}, {ω | BoxHolds B (fun p => draws p.1 p.2 ω)} := by
        ext ω; simp
      rw [this]
      refine MeasurableSet.iUnion fun R => MeasurableSet.biUnion (List.finite_toSet _).countable fun B hB => ?_
      refine boxHolds_measurable (rnd := fun p : ℕ × ℕ => draws p.1 p.2) h fun c hc => ?_
      obtain ⟨t, e | e⟩ := (boxes_keys hB).2.2 c hc <;> rw [e]
      · exact (hmm t).1
      · exact (hmm t).2
    have h1 : μ {ω | ∃ R, ∃ B ∈ boxes (acceptSet draw dim) (missSet draw dim) R 0 ts, BoxHolds B (fun p => draws p.1 p.2 ω)} = 1 := by
      rw [Measure.real] at hone
      rw [← ENNReal.toReal_eq_one_iff]
      exact hone
    exact (prob_compl_eq_zero_iff hm).2 h1
  filter_upwards [hae] with ω hbox
  obtain ⟨R, B, hB, hh⟩ := hbox
  exact loop_of_accept (r := fun k i => draws k i ω) hal hB hh result

end

/-- the distribution of the list of results when every place uses the same search -/
theorem list_law {Ω : Type*} [MeasurableSpace Ω] {μ : Measure Ω} {draws : ℕ → ℕ → Ω → ℝ} {dim : Nat} {draw : ℝ → Res Nat}
    (hms : ∀ k, MeasurableSet {r | draw r = .ok k}) (hm : mass {r | draw r = .ok dim} < 1) {ks : List Nat} (hk : ∀ k ∈ ks, k ≠ dim)
    (h : UniformDraws μ fun p : ℕ × ℕ => draws p.1 p.2) :
    μ.real {ω | ∃ final, SampleLoop dim (fun _ : ℕ => draw) (fun t => decide (t < ks.length)) (fun k i => draws k i ω) 0
        (List.range ks.length) (fun _ => 0) final ∧ ks = (List.range ks.length).map final} =
      (ks.map fun k => mass {r | draw r = .ok k} / (1 - mass {r | draw r = .ok dim})).prod := by
  have hv : ∀ t : ℕ, (if h : t < ks.length then ks[t] else dim + 1) ≠ dim := by
    intro t
    split
    · exact hk _ (List.getElem_mem _)
    · omega
  have key := loop_law (μ := μ) (draws := draws) (draw := fun _ : ℕ => draw) (alloc := fun t => decide (t < ks.length))
    (v := fun t => if h : t < ks.length then ks[t] else dim + 1) hv (fun _ => hms) (ts := List.range ks.length) (fun _ _ => hm) List.nodup_range
    (by simp) h (fun _ => 0)
  have hset : {ω | ∃ final, SampleLoop dim (fun _ : ℕ => draw) (fun t => decide (t < ks.length)) (fun k i => draws k i ω) 0
        (List.range ks.length) (fun _ => 0) final ∧ ks = (List.range ks.length).map final} =
      {ω | ∃ final, SampleLoop dim (fun _ : ℕ => draw) (fun t => decide (t < ks.length)) (fun k i => draws k i ω) 0
        (List.range ks.length) (fun _ => 0) final ∧ ∀ t ∈ List.range ks.length, final t = if h : t < ks.length then ks[t] else dim + 1} := by
    ext ω
    refine exists_congr fun final => and_congr Iff.rfl ?_
    constructor
    · intro e t ht
      have ht := List.mem_range.1 ht
      rw [dif_pos ht]
      have := congrArg (fun l => l[t]?) e
      simp only [List.getElem?_map, List.getElem?_range ht, Option.map_some, List.getElem?_eq_getElem ht, Option.some.injEq] at this
      exact this.symm
    · intro e
      refine List.ext_getElem (by simp) fun t h1 h2 => ?_
      rw [List.getElem_map, List.getElem_range, e t (List.mem_range.2 h1), dif_pos h1]
  rw [hset, key]
  congr 1
  refine List.ext_getElem (by simp) fun t h1 h2 => ?_
  have ht : t < ks.length := by simpa using h2
  simp [ht, hitSet, missSet]

/-! ## the search -/

theorem mass_Ico {a b : ℝ} (h0 : 0 ≤ a) (hab : a ≤ b) (h1 : b ≤ 1) : mass (Set.Ico a b) = b - a := by
  rw [mass, measureReal_restrict_apply measurableSet_Ico, Set.inter_eq_left.2 (Set.Ico_subset_Ico h0 h1), Real.volume_real_Ico_of_le hab]

theorem mass_congr {S T : Set ℝ} (h : ∀ r : ℝ, 0 ≤ r → r < 1 → (r ∈ S ↔ r ∈ T)) : mass S = mass T := by
  refine measureReal_congr ?_
  filter_upwards [ae_restrict_mem measurableSet_Ico] with r hr
  exact propext (h r hr.1 hr.2)

theorem searchLoop_measurable (s : List ℝ) (k lo hi : Nat) : MeasurableSet {r | searchLoop s r lo hi = .ok k} := by
  induction hd : hi - lo using Nat.strong_induction_on generalizing lo hi with
  | _ d ih =>
    by_cases h : hi - lo > 1
    · have e : {r | searchLoop s r lo hi = .ok k} = {r | (match s[(lo + hi) / 2]? with
          | none => (.error (.ub "stacked_prob out of range") : Res Nat)
          | some x => if x > r then searchLoop s r lo ((lo + hi) / 2) else searchLoop s r ((lo + hi) / 2) hi) = .ok k} := by
        ext r
        simp only [Set.mem_ofPred_eq]
        rw [searchLoop, dif_pos h]
        rfl
      rw [e]
      cases s[(lo + hi) / 2]? with
      | none => simp
      | some x =>
        have e2 : {r | (if x > r then searchLoop s r lo ((lo + hi) / 2) else searchLoop s r ((lo + hi) / 2) hi) = .ok k} =
            (Set.Iio x ∩ {r | searchLoop s r lo ((lo + hi) / 2) = .ok k}) ∪ (Set.Ici x ∩ {r | searchLoop s r ((lo + hi) / 2) hi = .ok k}) := by
          ext r
          simp only [Set.mem_ofPred_eq, Set.mem_union, Set.mem_inter_iff, Set.mem_Iio, Set.mem_Ici]
          by_cases hx : x > r
          · simp [hx, not_le.2 hx]
          · simp [hx, not_lt.1 hx]
        show MeasurableSet {r | (if x > r then searchLoop s r lo ((lo + hi) / 2) else searchLoop s r ((lo + hi) / 2) hi) = .ok k}
        rw [e2]
        exact (measurableSet_Iio.inter (ih _ (by omega) _ _ rfl)).union (measurableSet_Ici.inter (ih _ (by omega) _ _ rfl))
    · have e : {r | searchLoop s r lo hi = .ok k} = {_r | (.ok lo : Res Nat) = .ok k} := by
        ext r
        simp only [Set.mem_ofPred_eq]
        rw [searchLoop, dif_neg h]
      rw [e]
      exact MeasurableSet.const _

theorem drawIndex_measurable (s : List ℝ) (k : Nat) : MeasurableSet {r | drawIndex s r = .ok k} := searchLoop_measurable s k 0 s.length

theorem cumProb_nonneg (ψ : U64 → ℂ) (k : Nat) : 0 ≤ cumProb ψ k := Finset.sum_nonneg fun _ _ => Complex.normSq_nonneg _

/-- probability of an index -/
theorem mass_index {n : Nat} (ψ : U64 → ℂ) {k : Nat} (hk : k < 2 ^ n) :
    mass {r | drawIndex (stackedProb n ψ) r = .ok k} = min (cumProb ψ (k + 1)) 1 - min (cumProb ψ k) 1 := by
  rw [← mass_Ico (le_min (cumProb_nonneg ψ k) zero_le_one) (min_le_min (cumProb_mono ψ (Nat.le_succ k)) le_rfl) (min_le_right _ _)]
  refine mass_congr fun r h0 h1 => ?_
  show drawIndex (stackedProb n ψ) r = .ok k ↔ _
  rw [drawIndex_iff ψ h0]
  simp only [Hits, Set.mem_Ico, min_le_iff, lt_min_iff, h1, and_true, not_le.2 h1, or_false]
  exact ⟨fun h => ⟨h.2.1, h.2.2 hk⟩, fun h => ⟨hk.le, h.1, fun _ => h.2⟩⟩

/-- probability of a rejection -/
theorem mass_rejected {n : Nat} (hn : n ≤ 63) (ψ : U64 → ℂ) :
    mass {r | drawIndex (stackedProb n ψ) r = .ok (2 ^ n)} = 1 - min (normSq (2 ^ n) ψ) 1 := by
  rw [← cumProb_all hn, ← mass_Ico (le_min (cumProb_nonneg ψ _) zero_le_one) (min_le_right _ _) le_rfl]
  refine mass_congr fun r h0 h1 => ?_
  show drawIndex (stackedProb n ψ) r = .ok (2 ^ n) ↔ _
  rw [drawIndex_iff ψ h0]
  simp only [Hits, Set.mem_Ico, min_le_iff, h1, and_true, not_le.2 h1, or_false]
  exact ⟨fun h => h.2.1, fun h => ⟨le_rfl, h, fun h => absurd h (lt_irrefl _)⟩⟩

end Verif.Proofs
