import Verif.Core.Block

/-! # Masks with the low `l` bits added (the lanes of a SIMD register) -/

namespace Verif
attribute [-simp] BitVec.getLsbD_eq_getElem

/-- the word with exactly the low `l` bits set -/
def lowMask (l : Nat) : U64 := (1#64 <<< l) - 1

theorem getLsbD_low {l : Nat} (hl : l < 64) (i : Nat) : (lowMask l).getLsbD i = decide (i < l) :=
  getLsbD_lowMask hl i

theorem rank_or_low {M : U64} {l : Nat} (hl : l < 64) (hM : ∀ i, i < l → M.getLsbD i = false) (i : Nat) :
    rank (M ||| lowMask l) i = rank M i + min i l := by
  induction i with
  | zero => simp [rank]
  | succ i ih =>
    rw [rank_succ, rank_succ, ih, BitVec.getLsbD_or, getLsbD_low hl]
    by_cases h : i < l
    · simp [h, hM i h]; omega
    · simp [h]; omega

theorem popcount_or_low {M : U64} {l : Nat} (hl : l < 64) (hM : ∀ i, i < l → M.getLsbD i = false) :
    popcount (M ||| lowMask l) = popcount M + l := by
  rw [popcount_eq_rank, popcount_eq_rank, rank_or_low hl hM]; omega

theorem getLsbD_mul_pow (g : U64) {l : Nat} (i : Nat) (hi : i < 64) :
    (g * BitVec.ofNat 64 (2 ^ l)).getLsbD i = (decide (l ≤ i) && g.getLsbD (i - l)) := by
  rw [← BitVec.testBit_toNat, BitVec.toNat_mul, BitVec.toNat_ofNat, Nat.mul_mod_mod, Nat.testBit_mod_two_pow,
    Nat.testBit_mul_two_pow, BitVec.testBit_toNat]
  simp [hi]

/-- `insert_zero_at_mask_positions(g * lanes, M)` enumerates what `insert_zero` with the lane bits added to the
mask enumerates -/
theorem insertZero_lanes (g M : U64) {l : Nat} (hl : l < 64) (hM : ∀ i, i < l → M.getLsbD i = false) :
    insertZero (g * BitVec.ofNat 64 (2 ^ l)) M = insertZero g (M ||| lowMask l) := by
  apply U64.ext; intro i hi
  rw [getLsbD_insertZero _ _ i hi, getLsbD_insertZero _ _ i hi, rank_or_low hl hM,
    getLsbD_mul_pow g _ (by omega), BitVec.getLsbD_or, getLsbD_low hl]
  by_cases h : i < l
  · have h0 : rank M i = 0 := rank_low (p := l) hM (by omega)
    simp [h, h0]
  · have h1 : rank M i + l ≤ i := by
      have := rank_le (M ||| lowMask l) i
      rw [rank_or_low hl hM] at this; omega
    have e : i - (rank M i + min i l) = i - rank M i - l := by omega
    have e2 : decide (l ≤ i - rank M i) = true := by simp; omega
    rw [e, e2]; simp [h]

theorem workItems_lanes {dim l : Nat} {M : U64} (hl : l < 64) (hlow : ∀ i, i < l → M.getLsbD i = false) :
    workItems dim M / 2 ^ l = workItems dim (M ||| lowMask l) := by
  unfold workItems
  rw [popcount_or_low hl hlow, Nat.shiftRight_eq_div_pow, Nat.shiftRight_eq_div_pow, Nat.div_div_eq_div_mul,
    Nat.pow_add]

/-- adding a lane number to an address whose lane bits are clear -/
theorem getLsbD_add_lane {a : U64} {l k : Nat} (hl : l < 64) (ha : ∀ i, i < l → a.getLsbD i = false)
    (hk : k < 2 ^ l) (i : Nat) :
    (a + BitVec.ofNat 64 k).getLsbD i = if i < l then k.testBit i else a.getLsbD i := by
  have hdisj : a &&& BitVec.ofNat 64 k = 0#64 := by
    apply U64.ext; intro j hj
    rw [BitVec.getLsbD_and, BitVec.getLsbD_ofNat]
    by_cases h : j < l
    · simp [ha j h]
    · have : k.testBit j = false := Nat.testBit_lt_two_pow (lt_of_lt_of_le hk (Nat.pow_le_pow_right (by omega) (by omega)))
      simp [this]
  rw [BitVec.add_eq_or_of_and_eq_zero _ _ hdisj, BitVec.getLsbD_or, BitVec.getLsbD_ofNat]
  by_cases h : i < l
  · have : i < 64 := by omega
    simp [h, ha i h, this]
  · have : k.testBit i = false := Nat.testBit_lt_two_pow (lt_of_lt_of_le hk (Nat.pow_le_pow_right (by omega) (by omega)))
    simp [h, this]

end Verif
