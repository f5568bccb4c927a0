import Verif.Proofs.StateVec

/-! # Sampling -/

namespace Verif.Proofs
open Verif Verif.Model Verif.Spec
attribute [-simp] BitVec.getLsbD_eq_getElem

theorem stackedProb_length (n : Nat) (ψ : U64 → ℂ) : (stackedProb n ψ).length = 2 ^ n + 1 := by
  unfold stackedProb; rw [List.length_scanl, List.length_range]

theorem foldl_range_sum (f : Nat → ℝ) (k : Nat) :
    (List.range k).foldl (fun acc i => acc + f i) 0 = ∑ i ∈ Finset.range k, f i := by
  induction k with
  | zero => rfl
  | succ k ih => rw [List.range_succ, List.foldl_append, ih, Finset.sum_range_succ]; rfl

theorem stackedProb_get (n : Nat) (ψ : U64 → ℂ) {k : Nat} (hk : k ≤ 2 ^ n) :
    (stackedProb n ψ)[k]? = some (cumProb ψ k) := by
  unfold stackedProb
  rw [List.getElem?_scanl, List.length_range, if_pos hk, List.take_range, min_eq_left hk]
  congr 1
  exact foldl_range_sum (fun i => Complex.normSq (ψ (BitVec.ofNat 64 i))) k

theorem cumProb_mono (ψ : U64 → ℂ) {a b : Nat} (h : a ≤ b) : cumProb ψ a ≤ cumProb ψ b := by
  unfold cumProb
  apply Finset.sum_le_sum_of_subset_of_nonneg
  · intro i hi
    have := Finset.mem_range.1 hi
    exact Finset.mem_range.2 (by omega)
  · intro i _ _; exact Complex.normSq_nonneg _

theorem cumProb_all {n : Nat} (hn : n ≤ 63) (ψ : U64 → ℂ) : cumProb ψ (2 ^ n) = normSq (2 ^ n) ψ := by
  unfold cumProb normSq; rw [sum_indices (pow64 hn)]

/-- the draw `r` falls into the part of the cumulative distribution belonging to `k`; `k = dim` if it falls outside -/
def Hits (n : Nat) (ψ : U64 → ℂ) (r : ℝ) (k : Nat) : Prop :=
  k ≤ 2 ^ n ∧ cumProb ψ k ≤ r ∧ (k < 2 ^ n → r < cumProb ψ (k + 1))

theorem Hits.unique {n : Nat} {ψ : U64 → ℂ} {r : ℝ} {a b : Nat} (ha : Hits n ψ r a) (hb : Hits n ψ r b) : a = b := by
  have key : ∀ {a b : Nat}, Hits n ψ r a → Hits n ψ r b → ¬ a < b := by
    intro a b ha hb hab
    have h1 := ha.2.2 (lt_of_lt_of_le hab hb.1)
    have h2 := cumProb_mono ψ (show a + 1 ≤ b from hab)
    have h3 := hb.2.1
    linarith
  have := key ha hb
  have := key hb ha
  omega

theorem searchLoop_hits {n : Nat} {ψ : U64 → ℂ} {r : ℝ} {lo hi : Nat} (hlt : lo < hi) (hhi : hi ≤ 2 ^ n + 1)
    (hlo : cumProb ψ lo ≤ r) (hup : hi ≤ 2 ^ n → r < cumProb ψ hi) :
    ∃ k, searchLoop (stackedProb n ψ) r lo hi = .ok k ∧ Hits n ψ r k := by
  induction hd : hi - lo using Nat.strong_induction_on generalizing lo hi with
  | _ d ih =>
    unfold searchLoop
    by_cases h : hi - lo > 1
    · rw [dif_pos h, stackedProb_get n ψ (show (lo + hi) / 2 ≤ 2 ^ n by omega)]
      dsimp only
      by_cases hx : cumProb ψ ((lo + hi) / 2) > r
      · rw [if_pos hx]
        exact ih ((lo + hi) / 2 - lo) (by omega) (by omega) (by omega) hlo (fun _ => hx) rfl
      · rw [if_neg hx]
        exact ih (hi - (lo + hi) / 2) (by omega) (by omega) hhi (not_lt.1 hx) hup rfl
    · rw [dif_neg h]
      refine ⟨lo, rfl, by omega, hlo, fun hl => ?_⟩
      have : hi = lo + 1 := by omega
      subst this
      exact hup (by omega)

theorem drawIndex_hits {n : Nat} (ψ : U64 → ℂ) {r : ℝ} (hr : 0 ≤ r) :
    ∃ k, drawIndex (stackedProb n ψ) r = .ok k ∧ Hits n ψ r k := by
  unfold drawIndex
  rw [stackedProb_length]
  exact searchLoop_hits (Nat.succ_pos _) (le_refl _) (by simpa [cumProb] using hr) (by omega)

theorem drawIndex_iff {n : Nat} (ψ : U64 → ℂ) {r : ℝ} (hr : 0 ≤ r) (k : Nat) :
    drawIndex (stackedProb n ψ) r = .ok k ↔ Hits n ψ r k := by
  obtain ⟨k', h, hk'⟩ := drawIndex_hits (n := n) ψ hr
  rw [h]
  constructor
  · intro e; cases e; exact hk'
  · intro hk; rw [hk.unique hk']

/-- the draw cannot fall outside when the state is normalised -/
theorem Hits.lt {n : Nat} (hn : n ≤ 63) {ψ : U64 → ℂ} {r : ℝ} {k : Nat} (h : Hits n ψ r k)
    (hr : r < normSq (2 ^ n) ψ) : k < 2 ^ n := by
  rcases Nat.lt_or_ge k (2 ^ n) with h1 | h1
  · exact h1
  · have : k = 2 ^ n := le_antisymm h.1 h1
    subst this
    rw [← cumProb_all hn] at hr
    exact absurd h.2.1 (not_le.2 hr)

section
variable {κ : Type} [DecidableEq κ] {n : Nat} {st : κ → U64 → ℂ} {alloc : κ → Bool}

theorem round_spec {rnd : Nat → ℝ} (hr : ∀ i, 0 ≤ rnd i) (i : Nat) (todo : List κ) (result : κ → Nat)
    (hnd : todo.Nodup) (hal : ∀ t ∈ todo, alloc t = true) :
    ∃ next result', sampleRound (2 ^ n) (fun t => drawIndex (stackedProb n (st t))) alloc rnd i todo result = .ok (next, result') ∧
      next.Sublist todo ∧ (∀ t, t ∉ todo → result' t = result t) ∧
      ∀ j (hj : j < todo.length), ∃ k, Hits n (st todo[j]) (rnd (i + j)) k ∧
        ((k = 2 ^ n ∧ todo[j] ∈ next) ∨ (k < 2 ^ n ∧ todo[j] ∉ next ∧ result' todo[j] = k)) := by
  induction todo generalizing i result with
  | nil => exact ⟨[], result, rfl, .refl _, fun _ _ => rfl, fun j hj => absurd hj (by simp)⟩
  | cons t todo ih =>
    obtain ⟨hnt, hnd'⟩ := List.nodup_cons.1 hnd
    obtain ⟨k, hk, hhit⟩ := drawIndex_hits (n := n) (st t) (hr i)
    by_cases hkd : k = 2 ^ n
    · obtain ⟨next, result', e, hsub, hkeep, hall⟩ := ih (i + 1) result hnd' (fun s hs => hal s (by simp [hs]))
      refine ⟨t :: next, result', ?_, hsub.cons_cons t, fun s hs => hkeep s (fun h => hs (by simp [h])), ?_⟩
      · unfold sampleRound
        rw [hk, ok_bind, if_pos hkd, e]; rfl
      · intro j hj
        cases j with
        | zero => exact ⟨k, hhit, .inl ⟨hkd, by simp⟩⟩
        | succ j =>
          obtain ⟨k', h1, h2⟩ := hall j (by simpa using hj)
          refine ⟨k', by rw [show i + (j + 1) = i + 1 + j by omega]; exact h1, ?_⟩
          have hne : todo[j]'(by simpa using hj) ≠ t := fun e => hnt (e ▸ List.getElem_mem _)
          rcases h2 with ⟨a, b⟩ | ⟨a, b, c⟩
          · exact .inl ⟨a, by simp only [List.getElem_cons_succ]; exact List.mem_cons_of_mem _ b⟩
          · exact .inr ⟨a, by simp only [List.getElem_cons_succ]; rw [List.mem_cons]; rintro (h | h); exacts [hne h, b h], c⟩
    · obtain ⟨next, result', e, hsub, hkeep, hall⟩ :=
        ih (i + 1) (Function.update result t k) hnd' (fun s hs => hal s (by simp [hs]))
      refine ⟨next, result', ?_, hsub.cons t, ?_, ?_⟩
      · unfold sampleRound
        rw [hk, ok_bind, if_neg hkd, if_pos (hal t (by simp)), e]
      · intro s hs
        rw [hkeep s (fun h => hs (by simp [h])), Function.update_of_ne (fun e => hs (by simp [e]))]
      · intro j hj
        cases j with
        | zero =>
          refine ⟨k, hhit, .inr ⟨lt_of_le_of_ne hhit.1 hkd, fun h => hnt (hsub.subset h), ?_⟩⟩
          show result' t = k
          rw [hkeep t hnt, Function.update_self]
        | succ j =>
          obtain ⟨k', h1, h2⟩ := hall j (by simpa using hj)
          exact ⟨k', by rw [show i + (j + 1) = i + 1 + j by omega]; exact h1, h2⟩

/-- every place that was to do gets an index from a draw of its own -/
theorem loop_spec {rnd : Nat → Nat → ℝ} (hr : ∀ k i, 0 ≤ rnd k i) {k : Nat} {todo : List κ} {result final : κ → Nat}
    (h : SampleLoop (2 ^ n) (fun t => drawIndex (stackedProb n (st t))) alloc rnd k todo result final)
    (hnd : todo.Nodup) (hal : ∀ t ∈ todo, alloc t = true) :
    (∀ t, t ∉ todo → final t = result t) ∧
    ∃ draw : κ → Nat × Nat, (∀ t ∈ todo, k ≤ (draw t).1) ∧ (∀ s ∈ todo, ∀ t ∈ todo, draw s = draw t → s = t) ∧
      ∀ t ∈ todo, final t < 2 ^ n ∧ Hits n (st t) (rnd (draw t).1 (draw t).2) (final t) := by
  induction h with
  | done k result => exact ⟨fun _ _ => rfl, fun _ => (k, 0), by simp, by simp, by simp⟩
  | step k t todo next result result' final hround _ ih =>
    obtain ⟨next', result'', e, hsub, hkeep, hall⟩ :=
      round_spec (n := n) (st := st) (hr k) 0 (t :: todo) result hnd hal
    rw [hround] at e
    cases e
    obtain ⟨ihk, draw, d1, d2, d3⟩ := ih (hsub.nodup hnd) (fun s hs => hal s (hsub.subset hs))
    refine ⟨fun s hs => by rw [ihk s (fun h => hs (hsub.subset h)), hkeep s hs], ?_⟩
    refine ⟨fun s => if s ∈ next then draw s else (k, (t :: todo).idxOf s), ?_, ?_, ?_⟩
    · intro s _
      dsimp only
      split
      · have := d1 s ‹_›; omega
      · exact le_refl _
    · intro s hs s' hs' heq
      dsimp only at heq
      split at heq <;> split at heq
      · exact d2 s ‹_› s' ‹_› heq
      · have := d1 s ‹_›; rw [heq] at this; exact absurd this (by simp)
      · have := d1 s' ‹_›; rw [← heq] at this; exact absurd this (by simp)
      · have e := (Prod.ext_iff.1 heq).2
        dsimp only at e
        exact (List.idxOf_inj hs).1 e
    · intro s hs
      dsimp only
      by_cases hn : s ∈ next
      · rw [if_pos hn]; exact d3 s hn
      · rw [if_neg hn, ihk s hn]
        have hj := List.idxOf_lt_length_of_mem hs
        obtain ⟨k', h1, h2⟩ := hall _ hj
        rw [List.getElem_idxOf hj, Nat.zero_add] at h1
        rw [List.getElem_idxOf hj] at h2
        rcases h2 with ⟨_, b⟩ | ⟨a, _, c⟩
        · exact absurd b hn
        · rw [c]; exact ⟨a, h1⟩

/-- with draws below the total probability one round is enough -/
theorem loop_one {rnd : Nat → Nat → ℝ} (hn : n ≤ 63) (hr : ∀ i, 0 ≤ rnd 0 i)
    (todo : List κ) (hnd : todo.Nodup) (hal : ∀ t ∈ todo, alloc t = true)
    (hlt : ∀ i, ∀ t ∈ todo, rnd 0 i < normSq (2 ^ n) (st t)) (result : κ → Nat) :
    ∃ final, SampleLoop (2 ^ n) (fun t => drawIndex (stackedProb n (st t))) alloc rnd 0 todo result final ∧
      ∀ j (hj : j < todo.length), Hits n (st todo[j]) (rnd 0 j) (final todo[j]) ∧ final todo[j] < 2 ^ n := by
  cases htodo : todo with
  | nil => exact ⟨result, .done _ _, fun j hj => absurd hj (by simp)⟩
  | cons t todo' =>
    rw [← htodo]
    obtain ⟨next, result', e, hsub, hkeep, hall⟩ := round_spec (n := n) (st := st) hr 0 todo result hnd hal
    have hnext : next = [] := by
      apply List.eq_nil_iff_forall_not_mem.2
      intro s hs
      obtain ⟨j, hj, rfl⟩ := List.getElem_of_mem (hsub.subset hs)
      obtain ⟨k, h1, h2⟩ := hall j hj
      have := h1.lt hn (hlt _ _ (List.getElem_mem hj))
      rcases h2 with ⟨a, _⟩ | ⟨_, b, _⟩
      · omega
      · exact b hs
    subst hnext
    refine ⟨result', ?_, ?_⟩
    · rw [htodo] at e ⊢
      exact .step 0 t todo' [] result result' result' e (.done _ _)
    · intro j hj
      obtain ⟨k, h1, h2⟩ := hall j hj
      rw [Nat.zero_add] at h1
      rcases h2 with ⟨_, b⟩ | ⟨a, _, c⟩
      · simp at b
      · rw [c]; exact ⟨h1, a⟩

theorem loop_unique {dim : Nat} {draw : κ → ℝ → Res Nat} {rnd : Nat → Nat → ℝ} {k : Nat} {todo : List κ} {result a b : κ → Nat}
    (h1 : SampleLoop dim draw alloc rnd k todo result a) (h2 : SampleLoop dim draw alloc rnd k todo result b) : a = b := by
  induction h1 with
  | done k result => cases h2; rfl
  | step k t todo next result result' final hround _ ih =>
    cases h2 with
    | step _ _ _ next' _ result'' _ hround' h' =>
      rw [hround] at hround'
      cases hround'
      exact ih h'

/-- if no draw is below the total probability, nothing is ever finished -/
theorem loop_stuck {rnd : Nat → Nat → ℝ} (hn : n ≤ 63) (hr : ∀ k i, 0 ≤ rnd k i) {todo : List κ} (hne : todo ≠ [])
    (hnd : todo.Nodup) (hal : ∀ t ∈ todo, alloc t = true)
    (hge : ∀ k i, ∀ t ∈ todo, normSq (2 ^ n) (st t) ≤ rnd k i) (k : Nat) (result final : κ → Nat) :
    ¬ SampleLoop (2 ^ n) (fun t => drawIndex (stackedProb n (st t))) alloc rnd k todo result final := by
  intro h
  induction h with
  | done => exact hne rfl
  | step k t todo next result result' final hround _ ih =>
    obtain ⟨next', result'', e, hsub, hkeep, hall⟩ :=
      round_spec (n := n) (st := st) (hr k) 0 (t :: todo) result hnd hal
    rw [hround] at e
    cases e
    refine ih ?_ (hsub.nodup hnd) (fun s hs => hal s (hsub.subset hs)) (fun k i s hs => hge k i s (hsub.subset hs))
    obtain ⟨k', h1, h2⟩ := hall 0 (by simp)
    rcases h2 with ⟨_, b⟩ | ⟨a, _, _⟩
    · exact List.ne_nil_of_mem b
    · have h3 := h1.2.2 a
      have h4 := cumProb_mono (st t) (show k' + 1 ≤ 2 ^ n from a)
      rw [cumProb_all hn] at h4
      have h5 := hge k (0 + 0) t (by simp)
      exact absurd (lt_of_lt_of_le h3 h4) (not_lt.2 h5)

end

end Verif.Proofs
