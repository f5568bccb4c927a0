import Verif.Proofs.AppliedStates
import Verif.Proofs.GateBounds
import Verif.Props.OperatorBatched

/-!
# C55: `get_applied_states` of a batched operator

The slots of the returned batch are the given state with the operator of the slot applied, under every schedule of the
kernels, exactly when no slot mixes terms without bit flips (whose contributions are added with a plain load and store) with
terms that flip a qubit other than qubit 0 (whose contributions are added atomically by other work items).
-/

namespace Verif.Props
open Verif Verif.Spec Verif.Model Verif.Proofs

/-- the batch of states with slot `s` the state `ψ` after the operator `l[s]` (zero outside the allocation) -/
noncomputable def statesAfter (l : List (List PauliOp)) (n : Nat) (ψ : U64 → ℂ) (a : Nat × U64) : ℂ :=
  if h : a.1 < l.length then (if InState (2 ^ n) a.2 then sumOperator l[a.1] ψ a.2 else 0) else 0

/-- every term of the slot flips a qubit, or no term flips any qubit other than qubit 0 -/
def NotMixed (ts : List PauliOp) : Prop := (∀ p ∈ ts, p.x ≠ 0) ∨ (∀ p ∈ ts, p.x = 0 ∨ p.x = 1)

/-- **C55** (states, part).  For a state of at least one qubit and a positive `batch_size`, if no slot is mixed,
`get_applied_states` returns, under every schedule and for every chunking, exactly the batch of the states with the operators
of the slots applied.  Missing: mixed slots (`C55_counterexample_race`), states without qubits (`C55_counterexample_qubits`)
and `batch_size = 0` (`C55_counterexample_chunk`), where it is false.  `min batchSize l.length < 2 ^ 31` because Kokkos takes the number of teams as an `int`. -/
theorem C55_states_partial (l : List (List PauliOp)) {n : Nat} (hn1 : 1 ≤ n) (hn : n < 64)
    (h : ∀ ts ∈ l, ∀ p ∈ ts, PauliFits p n) (hmix : ∀ ts ∈ l, NotMixed ts) (hlen : l.length < 2 ^ 63)
    (batchSize : U64) (hbs : batchSize ≠ 0) (hteams : min batchSize.toNat l.length < 2 ^ 31) (ψ : U64 → ℂ)
    (out : Nat × U64 → ℂ) :
    (OpB.ofLists l).AppliedStates n ψ batchSize out ↔ out = statesAfter l n ψ := by
  have hloop := csrLoop_runs hn1 hn (fun _ => ψ) l (fun ts hts p hp => (fits_masks (h ts hts p hp)).1) hmix hlen batchSize
    hbs hteams _ 0 (fun _ => 0) rfl (.inl rfl)
  have e : (fun a : Nat × U64 => (0 : ℂ) + if (0 : U64).toNat ≤ a.1 ∧ a.1 < l.length ∧ InState (2 ^ n) a.2 then
      slotAct (fun _ => ψ) l a.1 a.2 else 0) = statesAfter l n ψ := by
    funext a
    unfold statesAfter slotAct
    rw [zero_add]
    by_cases h1 : a.1 < l.length
    · rw [dif_pos h1]
      by_cases h2 : InState (2 ^ n) a.2
      · rw [if_pos ⟨by simp, h1, h2⟩, if_pos h2, sumOperator_eq, List.getD_eq_getElem?_getD, List.getElem?_eq_getElem h1]
        rfl
      · rw [if_neg (fun h' => h2 h'.2.2), if_neg h2]
    · rw [dif_neg h1, if_neg (fun h' => h1 h'.2.1)]
  rw [e] at hloop
  constructor
  · rintro ⟨-, slots, hs, hl⟩
    rw [slots_get] at hs
    cases hs
    exact csrLoop_unique hl hloop
  · rintro rfl
    exact ⟨hn, l, slots_get l, hloop⟩

example : (∀ ts ∈ ([[⟨1, 2, 0⟩, ⟨2, 3, 1⟩], [], [⟨1, 0, 3⟩, ⟨1, 1, 1⟩]] : List (List PauliOp)), NotMixed ts) ∧
    (2#64 : U64) ≠ 0 := by
  refine ⟨?_, by decide⟩
  intro ts hts
  simp only [List.mem_cons, List.not_mem_nil, or_false] at hts
  rcases hts with rfl | rfl | rfl
  · left; intro p hp
    simp only [List.mem_cons, List.not_mem_nil, or_false] at hp
    rcases hp with rfl | rfl <;> decide
  · left; intro p hp; cases hp
  · right; intro p hp
    simp only [List.mem_cons, List.not_mem_nil, or_false] at hp
    rcases hp with rfl | rfl
    · left; rfl
    · right; rfl

/-- a plain and an atomic increase of one cell in a chunk with a mixed slot -/
theorem chunk_races {n : Nat} (hn1 : 1 ≤ n) (hn : n < 64) (ψ : Nat → U64 → ℂ) (l : List (List PauliOp))
    (hfit : ∀ ts ∈ l, ∀ p ∈ ts, p.x.toNat < 2 ^ n) (bs b : U64) {league : Nat} (hb : b.toNat < l.length)
    (hc : csrLeague l bs b = .ok league) {s : Nat} (hs : s < l.length) (hbs : b.toNat ≤ s) (hsl : s < b.toNat + league)
    {p q : PauliOp} (hp : p ∈ l[s]) (hq : q ∈ l[s]) (hpx : p.x = 0) (hq0 : q.x ≠ 0) (hq1 : q.x ≠ 1) (m m' : Nat × U64 → ℂ) :
    ¬ ARuns (InBatch l.length (2 ^ n)) (csrChunk 0 0 ψ (2 ^ n) l bs b hb hc) m m' := by
  intro hr
  rw [csrChunk_eq] at hr
  have hqfit := hfit _ (List.getElem_mem hs) q hq
  have h2 := two_half hn1
  have hqn0 : q.x.toNat ≠ 0 := fun e => hq0 (BitVec.eq_of_toNat_eq (by simpa using e))
  have hqn1 : q.x.toNat ≠ 1 := fun e => hq1 (BitVec.eq_of_toNat_eq (by simpa using e))
  have hpos : 0 < 2 ^ n >>> 1 := by omega
  let r : Fin league := ⟨s - b.toNat, by omega⟩
  let i : Fin (2 ^ n >>> 1) := ⟨q.x.toNat / 2, by omega⟩
  let i0 : Fin (2 ^ n >>> 1) := ⟨0, hpos⟩
  have hrs : r.val + b.toNat = s := by show s - b.toNat + b.toNat = s; omega
  have hget : ∀ hh, l[r.val + b.toNat]'hh = l[s] := by intro hh; simp only [hrs]
  obtain ⟨o, ho, hoc, hoa⟩ : ∃ o ∈ termIncrs (ψ s) s (BitVec.ofNat 64 i.val) p, o.cell = (s, q.x) ∧ o.atomic = false := by
    have key := diag_toNat hn1 hn i
    have hiv : i.val = q.x.toNat / 2 := rfl
    unfold termIncrs idx0 idx1
    rw [if_pos hpx, if_pos hpx]
    rcases Nat.mod_two_eq_zero_or_one q.x.toNat with hm | hm
    · refine ⟨_, List.mem_cons_self .., ?_, by simp [hpx]⟩
      dsimp only
      congr 1
      apply BitVec.eq_of_toNat_eq; rw [key.1]; omega
    · refine ⟨_, List.mem_cons_of_mem _ (List.mem_cons_self ..), ?_, by simp [hpx]⟩
      dsimp only
      congr 1
      apply BitVec.eq_of_toNat_eq; rw [key.2]; omega
  obtain ⟨o', ho', hoc', hoa'⟩ : ∃ o ∈ termIncrs (ψ s) s (BitVec.ofNat 64 i0.val) q, o.cell = (s, q.x) ∧ o.atomic = true := by
    unfold termIncrs idx0 idx1
    rw [if_neg hq0]
    refine ⟨_, List.mem_cons_of_mem _ (List.mem_cons_self ..), ?_, decide_eq_true hq0⟩
    dsimp only
    unfold idx0
    rw [if_neg hq0, if_neg hq0]
    congr 1
    show insertZero 0 _ ^^^ q.x = q.x
    rw [insertZero_zero]; simp
  have hmem : ∀ (k : Fin (2 ^ n >>> 1)) (t : PauliOp) (x : Incr (Nat × U64) ℂ), t ∈ l[s] →
      x ∈ termIncrs (ψ s) s (BitVec.ofNat 64 k.val) t → x ∈ chunkIncrs ψ l b.toNat league (2 ^ n) (csrLeague_le hc) hb (r, k) := by
    intro k t x ht hx
    unfold chunkIncrs
    dsimp only
    simp only [hrs]
    exact List.mem_flatMap.2 ⟨t, ht, hx⟩
  obtain ⟨c, hcr, hrace⟩ := race_of_mixed (ok := InBatch l.length (2 ^ n))
    (chunkIncrs ψ l b.toNat league (2 ^ n) (csrLeague_le hc) hb) (by
      intro w o ho
      obtain ⟨t, ht, hts, htc, -⟩ := mem_termIncrs ho
      have hcov := covers hn1 hn (hfit _ (List.getElem_mem _) t ht)
      refine ⟨?_, ?_⟩
      · rw [hts]; have := w.1.isLt; have := csrLeague_le hc; omega
      · rcases htc with e | e <;> rw [e]
        · exact hcov.in0 w.2
        · exact hcov.in1 w.2)
    (i := (r, i)) (j := (r, i0)) (by
      intro e
      have := congrArg (fun w : Fin league × Fin (2 ^ n >>> 1) => w.2.val) e
      dsimp only [i, i0] at this
      omega)
    (hmem i p o hp ho) (hmem i0 q o' hq ho') (hoc.trans hoc'.symm) hoa hoa' m
  exact hr.no_race c hcr hrace

/-- **C55** fails for mixed slots: whenever some slot has a term without bit flips and a term that flips a qubit other than
qubit 0, `get_applied_states` has a data race, for every state and every `batch_size`; so it has no result. -/
theorem C55_counterexample_race (l : List (List PauliOp)) {n : Nat} (hn1 : 1 ≤ n) (hn : n < 64)
    (h : ∀ ts ∈ l, ∀ p ∈ ts, PauliFits p n) (hmix : ∃ ts ∈ l, ¬ NotMixed ts) (hlen : l.length < 2 ^ 63)
    (batchSize : U64) (hteams : min batchSize.toNat l.length < 2 ^ 31) (ψ : U64 → ℂ) (out : Nat × U64 → ℂ) :
    ¬ (OpB.ofLists l).AppliedStates n ψ batchSize out := by
  rintro ⟨-, slots, hsl, hl⟩
  rw [slots_get] at hsl
  cases hsl
  obtain ⟨ts, hts, hmix⟩ := hmix
  obtain ⟨s, hs, rfl⟩ := List.getElem_of_mem hts
  unfold NotMixed at hmix
  push Not at hmix
  obtain ⟨⟨p, hp, hpx⟩, ⟨q, hq, hq0, hq1⟩⟩ := hmix
  have hfit : ∀ ts ∈ l, ∀ p ∈ ts, p.x.toNat < 2 ^ n := fun ts hts p hp => (fits_masks (h ts hts p hp)).1
  have key : ∀ (b : U64) (m m' : Nat × U64 → ℂ), CsrLoop 0 0 (fun _ => ψ) (2 ^ n) l batchSize b m m' →
      b.toNat ≤ s → (b = 0 ∨ batchSize.toNat ≤ b.toNat) → False := by
    intro b m m' hL
    induction hL with
    | stop b m hb => intro hbs _; omega
    | chunk b m m1 m2 league hb hc hr hl ih =>
      intro hbs hb0
      by_cases hsl : s < b.toNat + league
      · exact chunk_races hn1 hn _ l hfit batchSize b hb hc hs hbs hsl hp hq hpx hq0 hq1 _ _ hr
      · rw [csrLeague_ok hteams] at hc
        cases hc
        have hadd : (b + batchSize).toNat = b.toNat + batchSize.toNat := by
          rw [BitVec.toNat_add]
          apply Nat.mod_eq_of_lt
          rcases hb0 with rfl | h
          · have := batchSize.isLt; simpa using this
          · omega
        exact ih (by omega) (.inr (by omega))
  exact key 0 _ _ hl (by simp) (.inl rfl)

example : ∃ ts ∈ ([[⟨1, 0, 1⟩, ⟨1, 2, 0⟩]] : List (List PauliOp)), ¬ NotMixed ts := by
  refine ⟨_, List.mem_cons_self .., ?_⟩
  rintro (h | h)
  · exact h _ (List.mem_cons_self ..) rfl
  · rcases h _ (List.mem_cons_of_mem _ (List.mem_cons_self ..)) with e | e
    · revert e; decide
    · revert e; decide

/-- **C55** fails for `batch_size = 0`: the loop over the chunks does not end. -/
theorem C55_counterexample_chunk (l : List (List PauliOp)) (hl : l ≠ []) (n : Nat) (ψ : U64 → ℂ) (out : Nat × U64 → ℂ) :
    ¬ (OpB.ofLists l).AppliedStates n ψ 0 out := by
  rintro ⟨-, slots, hsl, hL⟩
  rw [slots_get] at hsl
  cases hsl
  have hpos : 0 < l.length := List.length_pos_iff.2 hl
  have key : ∀ (b : U64) (m m' : Nat × U64 → ℂ), CsrLoop 0 0 (fun _ => ψ) (2 ^ n) l 0 b m m' → b = 0 → False := by
    intro b m m' hL
    induction hL with
    | stop b m hb => rintro rfl; exact hb (by simpa using hpos)
    | chunk b m m1 m2 league hb hc hr hl ih => rintro rfl; exact ih (by simp)
  exact key 0 _ _ hL rfl

example : ([[⟨1, 0, 1⟩]] : List (List PauliOp)) ≠ [] := by simp

/-- **C55** fails for states without qubits: the identity applied to the state `1` gives `0`. -/
theorem C55_counterexample_qubits : (OpB.ofLists [[⟨1, 0, 0⟩]]).AppliedStates 0 (fun _ => 1) 1 (fun _ => 0) ∧
    statesAfter [[⟨1, 0, 0⟩]] 0 (fun _ => 1) (0, 0) = 1 := by
  constructor
  · refine ⟨by norm_num, _, slots_get _, ?_⟩
    refine .chunk 0 _ (fun _ => 0) _ 1 (by simp) rfl ?_ (.stop _ _ (by decide))
    have e : IsEmpty (Fin (2 ^ 0 >>> (popcount 0 + 1))) := by
      rw [popcount_zero]; exact inferInstanceAs (IsEmpty (Fin 0))
    have hstuck : ∀ c c', ¬ AStep (InBatch 1 (2 ^ 0)) (c : APool (Fin 1 × Fin (2 ^ 0 >>> (popcount 0 + 1))) (Nat × U64) ℂ × _) c' := by
      intro c c' hs
      cases hs with
      | read pool m i => exact e.elim i.2
      | write pool m i => exact e.elim i.2
      | add pool m i => exact e.elim i.2
    refine ⟨?_, ?_, ?_, ?_⟩
    · rintro c - ⟨i, -⟩; exact e.elim i.2
    · rintro c - ⟨i, -⟩; exact e.elim i.2
    · intro c hc hf
      rcases Relation.ReflTransGen.cases_head hc with rfl | ⟨c', h, -⟩
      · rfl
      · exact absurd h (hstuck _ _)
    · intro c hc
      exact ⟨c, .refl, fun i => e.elim i.2⟩
  · unfold statesAfter
    rw [dif_pos (by simp), if_pos (by unfold InState; decide), sumOperator_eq]
    have hz : popcount 0#64 = 0 := popcount_zero
    simp [OpAct, PauliAct, pauliAct, pauliExp, hz]

end Verif.Props
