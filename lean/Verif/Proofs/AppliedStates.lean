import Verif.Model.AppliedStates
import Verif.Proofs.OperatorBatched
import Verif.Proofs.Pauli

/-! # The kernel that applies the slots of a batched operator -/

namespace Verif.Proofs
open Verif Verif.Spec Verif.Model
attribute [-simp] BitVec.getLsbD_eq_getElem

/-- the first index a work item increases for a term -/
def idx0 (x i : U64) : U64 := if x = 0 then 2 * i else insertZero i (1#64 <<< pivotOf x)

/-- the second index a work item increases for a term -/
def idx1 (x i : U64) : U64 := if x = 0 then 2 * i + 1 else idx0 x i ^^^ x

/-- the increases of work item `i` for one term -/
noncomputable def termIncrs (ψ : U64 → ℂ) (slot : Nat) (i : U64) (p : PauliOp) : List (Incr (Nat × U64) ℂ) :=
  [⟨decide (p.x ≠ 0), (slot, idx0 p.x i), PauliAct p ψ (idx0 p.x i)⟩,
   ⟨decide (p.x ≠ 0), (slot, idx1 p.x i), PauliAct p ψ (idx1 p.x i)⟩]

theorem insertZero_mask0 (b : U64) : insertZero b 0 = b := by
  unfold insertZero; rw [insertZeroLoop_zero]

theorem orZero' (b : U64) : b ||| 0 = b := by simp

theorem zeroOr' (b : U64) : 0 ||| b = b := by simp

theorem csrDiag_eq (ψ : U64 → ℂ) (slot : Nat) (p : PauliOp) (hx : p.x = 0) (ii : U64) (l : List (Incr (Nat × U64) ℂ)) :
    csrDiag 0 0 ψ slot p ii (AProg.ofIncrs l) = AProg.ofIncrs (⟨false, (slot, ii), PauliAct p ψ ii⟩ :: l) := by
  unfold csrDiag plainSub plainAdd
  simp only [insertZero_mask0, orZero']
  have key : PauliAct p ψ ii = if oddParity (ii &&& p.z) then -(p.coef * ψ ii) else p.coef * ψ ii := by
    unfold PauliAct
    rw [sign_eq, hx, pauliAct_diag]
    ring
  rw [AProg.ofIncrs, key]
  split <;> simp [sub_eq_add_neg]

theorem csrFlip_eq (ψ : U64 → ℂ) (slot : Nat) (p : PauliOp) (hx : p.x ≠ 0) (i : U64) (l : List (Incr (Nat × U64) ℂ)) :
    csrFlip 0 0 ψ slot p i (AProg.ofIncrs l) = AProg.ofIncrs (termIncrs ψ slot i p ++ l) := by
  unfold csrFlip termIncrs idx1 idx0
  simp only [orZero', zeroOr', if_neg hx, decide_eq_true hx, List.cons_append, List.nil_append, AProg.ofIncrs]
  congr 1
  · rw [sign_eq, phaseM90_eq]
    unfold PauliAct pauliAct pauliExp
    rw [I_zpow_add]; ring
  · congr 1
    rw [sign_eq, phaseM90_eq]
    unfold PauliAct pauliAct pauliExp
    rw [I_zpow_add, xor_xor_cancel]; ring

theorem csrItem_eq (ψ : U64 → ℂ) (slot : Nat) (i : U64) (ts : List PauliOp) :
    csrItem 0 0 ψ slot i ts = AProg.ofIncrs (ts.flatMap (termIncrs ψ slot i)) := by
  induction ts with
  | nil => rfl
  | cons p ts ih =>
    unfold csrItem
    rw [ih]
    split
    · rename_i hx
      rw [csrDiag_eq _ _ _ hx, csrDiag_eq _ _ _ hx]
      simp [termIncrs, idx0, idx1, hx]
    · rename_i hx
      rw [csrFlip_eq _ _ _ hx, List.flatMap_cons]

/-! ## which work item increases which index -/

structure Covers (n : Nat) (x : U64) : Prop where
  in0 : ∀ i : Fin (2 ^ n >>> 1), InState (2 ^ n) (idx0 x (BitVec.ofNat 64 i.val))
  in1 : ∀ i : Fin (2 ^ n >>> 1), InState (2 ^ n) (idx1 x (BitVec.ofNat 64 i.val))
  ne : ∀ i : Fin (2 ^ n >>> 1), idx0 x (BitVec.ofNat 64 i.val) ≠ idx1 x (BitVec.ofNat 64 i.val)
  inj : ∀ (i i' : Fin (2 ^ n >>> 1)) (j : U64),
    (j = idx0 x (BitVec.ofNat 64 i.val) ∨ j = idx1 x (BitVec.ofNat 64 i.val)) →
    (j = idx0 x (BitVec.ofNat 64 i'.val) ∨ j = idx1 x (BitVec.ofNat 64 i'.val)) → i = i'
  surj : ∀ j : U64, InState (2 ^ n) j →
    ∃ i : Fin (2 ^ n >>> 1), j = idx0 x (BitVec.ofNat 64 i.val) ∨ j = idx1 x (BitVec.ofNat 64 i.val)

theorem half_pow {n : Nat} (hn : 1 ≤ n) : 2 ^ n >>> 1 = 2 ^ (n - 1) := by
  obtain ⟨k, rfl⟩ : ∃ k, n = k + 1 := ⟨n - 1, by omega⟩
  rw [Nat.shiftRight_eq_div_pow, pow_succ]; simp

theorem two_half {n : Nat} (hn : 1 ≤ n) : 2 ^ n = 2 * (2 ^ n >>> 1) := by
  rw [half_pow hn]
  obtain ⟨k, rfl⟩ : ∃ k, n = k + 1 := ⟨n - 1, by omega⟩
  rw [pow_succ]; simp; ring

theorem diag_toNat {n : Nat} (hn : 1 ≤ n) (hn64 : n < 64) (i : Fin (2 ^ n >>> 1)) :
    (2 * BitVec.ofNat 64 i.val : U64).toNat = 2 * i.val ∧ (2 * BitVec.ofNat 64 i.val + 1 : U64).toNat = 2 * i.val + 1 := by
  have h1 := i.isLt
  have h2 := two_half hn
  have h3 : 2 ^ n ≤ 2 ^ 63 := Nat.pow_le_pow_right (by norm_num) (by omega)
  constructor
  · rw [BitVec.toNat_mul]; simp; omega
  · rw [BitVec.toNat_add, BitVec.toNat_mul]; simp; omega

theorem covers_diag {n : Nat} (hn : 1 ≤ n) (hn64 : n < 64) : Covers n 0 := by
  have key := diag_toNat hn hn64
  have h2 := two_half hn
  have e0 : ∀ i, idx0 0 i = 2 * i := fun i => if_pos rfl
  have e1 : ∀ i, idx1 0 i = 2 * i + 1 := fun i => if_pos rfl
  refine ⟨fun i => ?_, fun i => ?_, fun i h => ?_, fun i i' j h h' => ?_, fun j hj => ?_⟩
  · rw [e0]; unfold InState; rw [(key i).1]; have := i.isLt; omega
  · rw [e1]; unfold InState; rw [(key i).2]; have := i.isLt; omega
  · rw [e0, e1] at h
    have := congrArg BitVec.toNat h
    rw [(key i).1, (key i).2] at this; omega
  · rw [e0, e1] at h h'
    have a1 := key i
    have a2 := key i'
    apply Fin.ext
    rcases h with rfl | rfl <;> rcases h' with h' | h' <;> have := congrArg BitVec.toNat h' <;> omega
  · unfold InState at hj
    refine ⟨⟨j.toNat / 2, by omega⟩, ?_⟩
    rw [e0, e1]
    have := key ⟨j.toNat / 2, by omega⟩
    rcases Nat.mod_two_eq_zero_or_one j.toNat with h | h
    · left; apply BitVec.eq_of_toNat_eq; rw [this.1]; dsimp only; omega
    · right; apply BitVec.eq_of_toNat_eq; rw [this.2]; dsimp only; omega

theorem covers_flip {n : Nat} (hn64 : n < 64) {x : U64} (hx : x ≠ 0) (hfit : x.toNat < 2 ^ n) : Covers n x := by
  have h : FlipOK 1 n 0 0 x := ⟨by rw [one_mul]; exact Nat.pow_le_pow_right (by norm_num) (by omega),
    by simp, hfit, by simp, by simp⟩
  have hM := h.masks hx
  have hb := FlipOK.isBit hx
  obtain ⟨hp64, hpx⟩ := pivotOf_spec hx
  have items : workItems (1 * 2 ^ n) (1#64 <<< pivotOf x ||| 0) = 2 ^ n >>> 1 := by
    rw [h.items hx, popcount_zero, one_mul]
  have e0 : ∀ i, idx0 x i = insertZero i (1#64 <<< pivotOf x ||| 0) ||| 0 := by
    intro i; rw [orZero', orZero']; exact if_neg hx
  have e1 : ∀ i, idx1 x i = idx0 x i ^^^ x := fun i => if_neg hx
  have lt : ∀ i : Fin (2 ^ n >>> 1), i.val < workItems (1 * 2 ^ n) (1#64 <<< pivotOf x ||| 0) := by
    intro i; rw [items]; exact i.isLt
  have base : ∀ i : Fin (2 ^ n >>> 1), IsBase (1 * 2 ^ n) (1#64 <<< pivotOf x) 0 0 (idx0 x (BitVec.ofNat 64 i.val)) := by
    intro i; rw [e0]; exact base_isBase hM (lt i)
  have bit0 : ∀ i : Fin (2 ^ n >>> 1), (idx0 x (BitVec.ofNat 64 i.val)).getLsbD (pivotOf x) = false :=
    fun i => (base i).target _ (by rw [hb.2]; simp)
  have self : ∀ i i' : Fin (2 ^ n >>> 1),
      idx0 x (BitVec.ofNat 64 i.val) = idx0 x (BitVec.ofNat 64 i'.val) → i = i' := by
    intro i i' e
    rw [e0, e0] at e
    refine Fin.ext (block_inj hM (lt i) (lt i') (j := insertZero (BitVec.ofNat 64 i.val) (1#64 <<< pivotOf x ||| 0) ||| 0)
      (fun _ _ _ => rfl) ?_)
    rw [e]; exact fun _ _ _ => rfl
  have cross : ∀ i i' : Fin (2 ^ n >>> 1),
      idx0 x (BitVec.ofNat 64 i.val) ≠ idx0 x (BitVec.ofNat 64 i'.val) ^^^ x := by
    intro i i' e
    have := congrArg (fun y => BitVec.getLsbD y (pivotOf x)) e
    rw [BitVec.getLsbD_xor, bit0, bit0, hpx] at this
    cases this
  have in0 : ∀ i : Fin (2 ^ n >>> 1), InState (1 * 2 ^ n) (idx0 x (BitVec.ofNat 64 i.val)) := fun i => (base i).inState
  refine ⟨fun i => ?_, fun i => ?_, fun i => ?_, fun i i' j ha ha' => ?_, fun j hj => ?_⟩
  · have := in0 i; rwa [one_mul] at this
  · have := (h.inState_xor _).2 (in0 i); rwa [one_mul, ← e1] at this
  · rw [e1]; exact cross i i
  · rw [e1] at ha ha'
    rcases ha with ha | ha <;> rcases ha' with ha' | ha'
    · exact self _ _ (ha.symm.trans ha')
    · exact absurd (ha.symm.trans ha') (cross i i')
    · exact absurd (ha'.symm.trans ha) (cross i' i)
    · apply self
      have e := congrArg (· ^^^ x) (ha.symm.trans ha')
      simpa only [xor_xor_cancel] using e
  · have hj1 : InState (1 * 2 ^ n) j := by rwa [one_mul]
    cases hbit : j.getLsbD (pivotOf x) with
    | false =>
      obtain ⟨it, hit, hB⟩ := block_surj hM hj1 (by simp : j &&& 0 = 0)
      rw [items] at hit
      rw [← e0] at hB
      refine ⟨⟨it, hit⟩, ?_⟩
      rcases (inBlock_one hb (bit0 ⟨it, hit⟩)).1 hB with ⟨e, -⟩ | ⟨-, e⟩
      · exact .inl e
      · rw [hbit] at e; cases e
    | true =>
      obtain ⟨it, hit, hB⟩ := block_surj hM ((h.inState_xor j).2 hj1) (by simp : (j ^^^ x) &&& 0 = 0)
      rw [items] at hit
      rw [← e0] at hB
      refine ⟨⟨it, hit⟩, ?_⟩
      rcases (inBlock_one hb (bit0 ⟨it, hit⟩)).1 hB with ⟨e, -⟩ | ⟨-, e⟩
      · right
        rw [e1]
        show j = idx0 x (BitVec.ofNat 64 it) ^^^ x
        rw [← e, xor_xor_cancel]
      · rw [BitVec.getLsbD_xor, hbit, hpx] at e; cases e

theorem covers {n : Nat} (hn : 1 ≤ n) (hn64 : n < 64) {x : U64} (hfit : x.toNat < 2 ^ n) : Covers n x := by
  by_cases hx : x = 0
  · subst hx; exact covers_diag hn hn64
  · exact covers_flip hn64 hx hfit

/-! ## the sums -/

theorem gain_term {n : Nat} {p : PauliOp} (h : Covers n p.x) (ψ : U64 → ℂ) (slot : Nat) (i : Fin (2 ^ n >>> 1))
    (s : Nat) (j : U64) : gain (termIncrs ψ slot (BitVec.ofNat 64 i.val) p) (s, j) =
      if slot = s ∧ (j = idx0 p.x (BitVec.ofNat 64 i.val) ∨ j = idx1 p.x (BitVec.ofNat 64 i.val)) then PauliAct p ψ j
      else 0 := by
  have hne := h.ne i
  unfold gain termIncrs
  simp only [List.map_cons, List.map_nil, List.sum_cons, List.sum_nil, add_zero, Prod.mk.injEq]
  by_cases e : slot = s
  · simp only [e, true_and]
    by_cases h0 : idx0 p.x (BitVec.ofNat 64 i.val) = j
    · rw [if_pos h0, if_neg (by rw [← h0]; exact fun e => hne e.symm), if_pos (.inl h0.symm), h0, add_zero]
    · by_cases h1 : idx1 p.x (BitVec.ofNat 64 i.val) = j
      · rw [if_neg h0, if_pos h1, if_pos (.inr h1.symm), h1, zero_add]
      · rw [if_neg h0, if_neg h1, if_neg, zero_add]
        rintro (e | e)
        · exact h0 e.symm
        · exact h1 e.symm
  · simp [e]

theorem sum_gain_term {n : Nat} {p : PauliOp} (h : Covers n p.x) (ψ : U64 → ℂ) (slot s : Nat) (j : U64) :
    (∑ i : Fin (2 ^ n >>> 1), gain (termIncrs ψ slot (BitVec.ofNat 64 i.val) p) (s, j)) =
      if slot = s ∧ InState (2 ^ n) j then PauliAct p ψ j else 0 := by
  simp only [gain_term h]
  by_cases hj : slot = s ∧ InState (2 ^ n) j
  · obtain ⟨i, hi⟩ := h.surj j hj.2
    rw [if_pos hj, Finset.sum_eq_single i, if_pos ⟨hj.1, hi⟩]
    · intro k _ hk
      rw [if_neg]
      rintro ⟨-, hk'⟩
      exact hk (h.inj k i j hk' hi)
    · intro hi'; exact absurd (Finset.mem_univ i) hi'
  · rw [if_neg hj]
    apply Finset.sum_eq_zero
    intro i _
    rw [if_neg]
    rintro ⟨e, rfl | rfl⟩
    · exact hj ⟨e, h.in0 i⟩
    · exact hj ⟨e, h.in1 i⟩

theorem sum_gain_slot {n : Nat} (ts : List PauliOp) (h : ∀ p ∈ ts, Covers n p.x) (ψ : U64 → ℂ) (slot s : Nat) (j : U64) :
    (∑ i : Fin (2 ^ n >>> 1), gain (ts.flatMap (termIncrs ψ slot (BitVec.ofNat 64 i.val))) (s, j)) =
      if slot = s ∧ InState (2 ^ n) j then OpAct ts ψ j else 0 := by
  induction ts with
  | nil => simp [gain_nil, OpAct]
  | cons p ts ih =>
    simp only [List.flatMap_cons, gain_append]
    rw [Finset.sum_add_distrib, ih (fun q hq => h q (List.mem_cons_of_mem _ hq)), sum_gain_term (h p (List.mem_cons_self ..))]
    unfold OpAct
    split <;> simp

/-! ## slots that do not race -/

theorem insertZero_one (i : U64) : insertZero i (1#64 <<< pivotOf 1) = i <<< 1 := by
  have e : (1#64 <<< pivotOf 1) = 1#64 := by
    have : pivotOf 1 = 0 := by unfold pivotOf; decide
    rw [this]; rfl
  rw [e]
  unfold insertZero
  obtain ⟨p, m', hp, hset, hlow, hm', hlt, heq⟩ := insertZeroLoop_step i 1#64 (by decide)
  have hp0 : p = 0 := by
    by_contra h
    have := hlow 0 (by omega)
    revert this; decide
  subst hp0
  have : m' = 0 := by
    apply BitVec.eq_of_toNat_eq
    have : (1#64).toNat = 1 := rfl
    simp; omega
  rw [heq, this, insertZeroLoop_zero]
  apply U64.ext
  intro k hk
  rw [getLsbD_insertZeroAt (by omega) i k hk, BitVec.getLsbD_shiftLeft]
  by_cases h : k = 0
  · subst h; simp
  · simp [h, hk]

/-- the terms of a slot all flip a qubit, or none flips a qubit other than qubit 0 -/
def Unmixed (ts : List PauliOp) : Prop := (∀ p ∈ ts, p.x ≠ 0) ∨ (∀ p ∈ ts, p.x = 0 ∨ p.x = 1)

theorem idx_half {n : Nat} (hn : 1 ≤ n) (hn64 : n < 64) {x : U64} (hx : x = 0 ∨ x = 1) (i : Fin (2 ^ n >>> 1)) {j : U64}
    (h : j = idx0 x (BitVec.ofNat 64 i.val) ∨ j = idx1 x (BitVec.ofNat 64 i.val)) : j.toNat / 2 = i.val := by
  have key := diag_toNat hn hn64 i
  rcases hx with rfl | rfl
  · have e0 : ∀ i, idx0 0 i = 2 * i := fun i => if_pos rfl
    have e1 : ∀ i, idx1 0 i = 2 * i + 1 := fun i => if_pos rfl
    rw [e0, e1] at h
    rcases h with rfl | rfl <;> omega
  · have hs : BitVec.ofNat 64 i.val <<< 1 = 2 * BitVec.ofNat 64 i.val := by
      apply BitVec.eq_of_toNat_eq
      rw [BitVec.toNat_shiftLeft, BitVec.toNat_mul, Nat.shiftLeft_eq]
      simp [Nat.mul_comm]
    have e0 : idx0 1 (BitVec.ofNat 64 i.val) = 2 * BitVec.ofNat 64 i.val := by
      unfold idx0
      rw [if_neg (by decide), insertZero_one, hs]
    have e1 : idx1 1 (BitVec.ofNat 64 i.val) = 2 * BitVec.ofNat 64 i.val ^^^ 1 := by
      unfold idx1
      rw [if_neg (by decide), e0]
    rw [e0, e1] at h
    rcases h with rfl | rfl
    · omega
    · rw [BitVec.toNat_xor, key.1]
      apply Nat.eq_of_testBit_eq
      intro k
      rw [Nat.testBit_div_two, Nat.testBit_xor]
      have : (2 * i.val).testBit (k + 1) = i.val.testBit k := by
        rw [Nat.testBit_succ]; congr 1; omega
      rw [this]
      have : (1#64).toNat.testBit (k + 1) = false := by
        rw [Nat.testBit_succ]; simp
      erw [this]
      simp

theorem mem_termIncrs {ψ : U64 → ℂ} {slot : Nat} {i : U64} {ts : List PauliOp} {o : Incr (Nat × U64) ℂ}
    (h : o ∈ ts.flatMap (termIncrs ψ slot i)) :
    ∃ p ∈ ts, o.cell.1 = slot ∧ (o.cell.2 = idx0 p.x i ∨ o.cell.2 = idx1 p.x i) ∧ (o.atomic = true ↔ p.x ≠ 0) := by
  obtain ⟨p, hp, ho⟩ := List.mem_flatMap.1 h
  refine ⟨p, hp, ?_⟩
  unfold termIncrs at ho
  simp only [List.mem_cons, List.not_mem_nil, or_false] at ho
  rcases ho with rfl | rfl
  · exact ⟨rfl, .inl rfl, by simp⟩
  · exact ⟨rfl, .inr rfl, by simp⟩

/-- the increases of a work item of the chunk at `b` -/
noncomputable def chunkIncrs (ψ : Nat → U64 → ℂ) (slots : List (List PauliOp)) (b league dim : Nat)
    (h : league ≤ slots.length - b) (hb : b < slots.length) (w : Fin league × Fin (dim >>> 1)) : List (Incr (Nat × U64) ℂ) :=
  (slots[w.1.val + b]'(by have := w.1.isLt; omega)).flatMap
    (termIncrs (ψ (w.1.val + b)) (w.1.val + b) (BitVec.ofNat 64 w.2.val))

theorem csrChunk_eq (ψ : Nat → U64 → ℂ) (dim : Nat) (slots : List (List PauliOp)) (bs b : U64) {league : Nat}
    (hb : b.toNat < slots.length) (h : csrLeague slots bs b = .ok league) :
    csrChunk 0 0 ψ dim slots bs b hb h =
      fun w : Fin league × Fin (dim >>> 1) =>
        AProg.ofIncrs (chunkIncrs ψ slots b.toNat league dim (csrLeague_le h) hb w) := by
  funext w
  exact csrItem_eq _ _ _ _

/-- the state of slot `s` -/
noncomputable def slotAct (ψ : Nat → U64 → ℂ) (slots : List (List PauliOp)) (s : Nat) (j : U64) : ℂ :=
  OpAct (slots.getD s []) (ψ s) j

theorem chunk_runs {n : Nat} (hn : 1 ≤ n) (hn64 : n < 64) (ψ : Nat → U64 → ℂ) (slots : List (List PauliOp))
    (hfit : ∀ ts ∈ slots, ∀ p ∈ ts, p.x.toNat < 2 ^ n) (hun : ∀ ts ∈ slots, Unmixed ts)
    (bs b : U64) {league : Nat} (hb : b.toNat < slots.length) (h : csrLeague slots bs b = .ok league)
    (m m' : Nat × U64 → ℂ)
    (hm : ∀ s j, m' (s, j) = m (s, j) +
      if b.toNat ≤ s ∧ s < b.toNat + league ∧ InState (2 ^ n) j then slotAct ψ slots s j else 0) :
    ARuns (InBatch slots.length (2 ^ n)) (csrChunk 0 0 ψ (2 ^ n) slots bs b hb h) m m' := by
  rw [csrChunk_eq]
  have hle := csrLeague_le h
  have cov : ∀ ts ∈ slots, ∀ p ∈ ts, Covers n p.x := fun ts hts p hp => covers hn hn64 (hfit ts hts p hp)
  refine aruns_incrs (ι := Fin league × Fin (2 ^ n >>> 1)) _ _ ?_ ?_ _ _ ?_
  · intro w w' hw o ho o' ho' e
    obtain ⟨p, hp, hs, hc, hat⟩ := mem_termIncrs ho
    obtain ⟨p', hp', hs', hc', hat'⟩ := mem_termIncrs ho'
    have hslot : w.1 = w'.1 := by
      have : w.1.val + b.toNat = w'.1.val + b.toNat := by rw [← hs, ← hs', e]
      exact Fin.ext (by omega)
    obtain ⟨s, i⟩ := w
    obtain ⟨s', i'⟩ := w'
    dsimp only at hslot
    subst hslot
    have hii : i ≠ i' := fun e => hw (by rw [e])
    dsimp only at hp hp' hc hc'
    rcases hun _ (List.getElem_mem (by have := s.isLt; omega : s.val + b.toNat < slots.length)) with hall | hall
    · exact ⟨hat.2 (hall p hp), hat'.2 (hall p' hp')⟩
    · exfalso
      apply hii
      apply Fin.ext
      rw [← idx_half hn hn64 (hall p hp) i hc, e, idx_half hn hn64 (hall p' hp') i' hc']
  · intro w o ho
    obtain ⟨p, hp, hs, hc, -⟩ := mem_termIncrs ho
    have hc' := cov _ (List.getElem_mem _) p hp
    refine ⟨?_, ?_⟩
    · rw [hs]; have := w.1.isLt; omega
    · rcases hc with e | e <;> rw [e]
      · exact hc'.in0 w.2
      · exact hc'.in1 w.2
  · rintro ⟨s, j⟩
    rw [hm, Fintype.sum_prod_type]
    congr 1
    have : ∀ r : Fin league, (∑ i : Fin (2 ^ n >>> 1),
        gain (chunkIncrs ψ slots b.toNat league (2 ^ n) hle hb (r, i)) (s, j)) =
        if r.val + b.toNat = s ∧ InState (2 ^ n) j then slotAct ψ slots s j else 0 := by
      intro r
      have hr : r.val + b.toNat < slots.length := by have := r.isLt; omega
      unfold chunkIncrs
      dsimp only
      rw [sum_gain_slot _ (cov _ (List.getElem_mem hr))]
      split
      · rename_i e
        obtain ⟨e, -⟩ := e
        subst e
        unfold slotAct
        rw [List.getD_eq_getElem?_getD, List.getElem?_eq_getElem hr]; rfl
      · rfl
    rw [Finset.sum_congr rfl (fun r _ => this r)]
    by_cases hcase : b.toNat ≤ s ∧ s < b.toNat + league ∧ InState (2 ^ n) j
    · rw [if_pos hcase, Finset.sum_eq_single ⟨s - b.toNat, by omega⟩]
      · rw [if_pos]
        exact ⟨by dsimp only; omega, hcase.2.2⟩
      · intro r _ hr
        rw [if_neg]
        rintro ⟨e, -⟩
        apply hr
        apply Fin.ext
        dsimp only
        omega
      · intro hn; exact absurd (Finset.mem_univ _) hn
    · rw [if_neg hcase]
      symm
      apply Finset.sum_eq_zero
      intro r _
      rw [if_neg]
      rintro ⟨e, hj⟩
      have := r.isLt
      exact hcase ⟨by omega, by omega, hj⟩

theorem csrLeague_ok {slots : List (List PauliOp)} {bs b : U64} (h : min bs.toNat slots.length < 2 ^ 31) :
    csrLeague slots bs b = .ok (min bs.toNat (slots.length - b.toNat)) := by
  unfold csrLeague leagueSize
  have h1 : min bs.toNat (slots.length - b.toNat) < 2 ^ 31 := lt_of_le_of_lt (by omega) h
  rw [if_pos (by omega), Nat.mod_eq_of_lt (by omega)]

/-- what the loop leaves when it starts at `b` -/
theorem csrLoop_runs {n : Nat} (hn : 1 ≤ n) (hn64 : n < 64) (ψ : Nat → U64 → ℂ) (slots : List (List PauliOp))
    (hfit : ∀ ts ∈ slots, ∀ p ∈ ts, p.x.toNat < 2 ^ n) (hun : ∀ ts ∈ slots, Unmixed ts) (hlen : slots.length < 2 ^ 63)
    (bs : U64) (hbs : bs ≠ 0) (hleague : min bs.toNat slots.length < 2 ^ 31) :
    ∀ (k : Nat) (b : U64) (m : Nat × U64 → ℂ), slots.length - b.toNat = k → (b = 0 ∨ bs.toNat ≤ b.toNat) →
      CsrLoop 0 0 ψ (2 ^ n) slots bs b m (fun a => m a +
        if b.toNat ≤ a.1 ∧ a.1 < slots.length ∧ InState (2 ^ n) a.2 then slotAct ψ slots a.1 a.2 else 0) := by
  have hbs0 : 0 < bs.toNat := by
    rcases Nat.eq_zero_or_pos bs.toNat with h | h
    · exact absurd (BitVec.eq_of_toNat_eq (by simpa using h)) hbs
    · exact h
  intro k
  induction k using Nat.strong_induction_on with
  | _ k ih =>
    intro b m hk hb0
    by_cases hb : b.toNat < slots.length
    · have hadd : (b + bs).toNat = b.toNat + bs.toNat := by
        rw [BitVec.toNat_add]
        apply Nat.mod_eq_of_lt
        rcases hb0 with rfl | h
        · have := bs.isLt; simpa using this
        · omega
      refine .chunk b m (fun a => m a +
        if b.toNat ≤ a.1 ∧ a.1 < b.toNat + min bs.toNat (slots.length - b.toNat) ∧ InState (2 ^ n) a.2 then
          slotAct ψ slots a.1 a.2 else 0) _ _ hb (csrLeague_ok hleague) ?_ ?_
      · exact chunk_runs hn hn64 ψ slots hfit hun bs b hb _ m _ (fun s j => rfl)
      · have := ih (slots.length - (b + bs).toNat) (by omega) (b + bs) (fun a => m a +
          if b.toNat ≤ a.1 ∧ a.1 < b.toNat + min bs.toNat (slots.length - b.toNat) ∧ InState (2 ^ n) a.2 then
            slotAct ψ slots a.1 a.2 else 0) rfl (.inr (by omega))
        convert this using 1
        funext a
        rw [add_assoc]
        congr 1
        by_cases hj : InState (2 ^ n) a.2
        · simp only [hj, and_true]
          by_cases h1 : b.toNat ≤ a.1 ∧ a.1 < slots.length
          · rw [if_pos h1]
            by_cases h2 : a.1 < b.toNat + bs.toNat
            · rw [if_pos (by omega), if_neg (by omega), add_zero]
            · rw [if_neg (by omega), if_pos (by omega), zero_add]
          · rw [if_neg h1, if_neg (by omega), if_neg (by omega), add_zero]
        · simp [hj]
    · have := CsrLoop.stop (c := 0) (v := 0) (ψ := ψ) (dim := 2 ^ n) (slots := slots) (bs := bs) b m hb
      convert this using 1
      funext a
      rw [if_neg (by omega), add_zero]

theorem csrLoop_unique {ψ : Nat → U64 → ℂ} {dim : Nat} {slots : List (List PauliOp)} {bs b : U64} {m m1 m2 : Nat × U64 → ℂ}
    (h1 : CsrLoop 0 0 ψ dim slots bs b m m1) (h2 : CsrLoop 0 0 ψ dim slots bs b m m2) : m1 = m2 := by
  induction h1 with
  | stop b m hb =>
    cases h2 with
    | stop => rfl
    | chunk _ _ _ _ _ hb' => exact absurd hb' hb
  | chunk b m m1 m2' league hb h hr hl ih =>
    cases h2 with
    | stop hb' => contradiction
    | chunk _ _ m1' _ league' hb' h' hr' hl' =>
      have : league = league' := by rw [h] at h'; exact Except.ok.inj h'
      subst this
      have := hr.unique hr'
      subst this
      exact ih hl'

theorem slots_get (l : List (List PauliOp)) : (OpB.ofLists l).slots = .ok l := by
  have hs := slots_ofLists l
  unfold OpB.slots
  rw [mapM_ok _ (fun b => l[b.val]'(hs.bound b)) _ (fun b _ => hs.subview b)]
  congr 1
  apply List.ext_getElem
  · simp [hs.size]
  · intro i h1 h2
    simp

end Verif.Proofs
