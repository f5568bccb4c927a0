import Mathlib.Order.Nat
import Mathlib.Order.Interval.Finset.Nat
import Mathlib.Tactic.Ring
import Mathlib.Tactic.Linarith
import Mathlib.Data.Nat.Count

/-!
# 64-bit index arithmetic

Models of the bit tricks of /repo/include/scaluq/util/utility.hpp and their bit-level meaning.
-/

namespace Verif

attribute [-simp] BitVec.getLsbD_eq_getElem

/-- `std::uint64_t` -/
abbrev U64 := BitVec 64

/-- `std::popcount(m)`: number of set bits (C++20 <bit>), used e.g. at
/repo/src/gate/update_ops_standard.cpp:24. -/
def popcount (m : U64) : Nat := Nat.count (fun k => m.getLsbD k = true) 64

/-- /repo/include/scaluq/util/utility.hpp:36-43, the loop of `insert_zero_at_mask_positions`:
`b` is `basis_index`, `m` is `bit_mask`. -/
def insertZeroLoop (b m : U64) : U64 :=
  if h : m = 0 then b
  else
    let lower := ~~~m &&& (m - 1)
    let upper := ~~~lower
    insertZeroLoop (((b &&& upper) <<< 1) ||| (b &&& lower)) (m &&& (m - 1))
termination_by m.toNat
decreasing_by
  have h1 : (m &&& (m - 1)).toNat ≤ (m - 1).toNat := by
    rw [BitVec.toNat_and]; exact Nat.and_le_right
  have h2 : (m - 1).toNat < m.toNat := by
    have : m.toNat ≠ 0 := fun e => h (BitVec.eq_of_toNat_eq (by simpa using e))
    rw [BitVec.toNat_sub]
    have := m.isLt
    simp
    omega
  omega

/-- /repo/include/scaluq/util/utility.hpp:35-44 `insert_zero_at_mask_positions(basis_index, insert_mask)`. -/
def insertZero (basisIndex insertMask : U64) : U64 := insertZeroLoop basisIndex insertMask

/-- /repo/include/scaluq/util/utility.hpp:23-28 `insert_zero_to_basis_index`.  Only meaningful for
`insertIndex + 1 < 64` (a C++ shift by 64 or more is undefined); callers are responsible for that. -/
def insertZeroAt (basisIndex : U64) (insertIndex : Nat) : U64 :=
  let mask : U64 := (1#64 <<< insertIndex) - 1
  let temp := (basisIndex >>> insertIndex) <<< (insertIndex + 1)
  temp ||| (basisIndex &&& mask)

/-! ## Bit-level facts -/

theorem U64.ext {a b : U64} (h : ∀ i, i < 64 → a.getLsbD i = b.getLsbD i) : a = b :=
  BitVec.eq_of_getLsbD_eq (fun i hi => h i hi)

/-- number of set bits of `m` strictly below position `i` -/
def rank (m : U64) (i : Nat) : Nat := Nat.count (fun k => m.getLsbD k = true) i

theorem rank_le (m : U64) (i : Nat) : rank m i ≤ i := Nat.count_le _

theorem rank_succ (m : U64) (i : Nat) :
    rank m (i + 1) = rank m i + if m.getLsbD i = true then 1 else 0 := Nat.count_succ _ _

theorem rank_mono (m : U64) {i j : Nat} (h : i ≤ j) : rank m i ≤ rank m j := Nat.count_monotone _ h

theorem popcount_eq_rank (m : U64) : popcount m = rank m 64 := rfl

theorem popcount_le (m : U64) : popcount m ≤ 64 := Nat.count_le _

/-- bits at or above 64 are clear -/
theorem getLsbD_high (m : U64) {i : Nat} (h : 64 ≤ i) : m.getLsbD i = false :=
  BitVec.getLsbD_of_ge m i h

theorem rank_of_clear (m : U64) {i j : Nat} (hij : i ≤ j) (h : ∀ k, i ≤ k → k < j → m.getLsbD k = false) :
    rank m j = rank m i := by
  induction j with
  | zero => have : i = 0 := by omega
            simp [this]
  | succ j ih =>
    rcases Nat.lt_or_ge j i with hlt | hge
    · have : i = j + 1 := by omega
      simp [this]
    · rw [rank_succ, h j hge (by omega), ih hge (fun k h1 h2 => h k h1 (by omega))]; simp

/-- decomposition of a non-zero word at its lowest set bit -/
theorem low_bit (m : U64) (hm : m ≠ 0) : ∃ p, p < 64 ∧ m.getLsbD p = true ∧
    (∀ i, i < p → m.getLsbD i = false) ∧
    (∀ i, i < 64 → (m - 1).getLsbD i = if i < p then true else if i = p then false else m.getLsbD i) := by
  classical
  have hex : ∃ p, m.getLsbD p = true := by
    by_contra hn
    push Not at hn
    exact hm (U64.ext (fun i _ => by simpa using hn i))
  refine ⟨Nat.find hex, ?_, Nat.find_spec hex, ?_, ?_⟩
  · by_contra hge
    have := Nat.find_spec hex
    rw [getLsbD_high m (by omega)] at this
    cases this
  · intro i hi
    simpa using Nat.find_min hex hi
  · set p := Nat.find hex with hp
    have hspec : m.getLsbD p = true := Nat.find_spec hex
    have hmin : ∀ i, i < p → m.getLsbD i = false := fun i hi => by simpa using Nat.find_min hex hi
    have hp64 : p < 64 := by
      by_contra hge
      rw [getLsbD_high m (by omega)] at hspec
      cases hspec
    intro i hi
    -- m = 2^p * (2 q + 1)
    have hmod : m.toNat % 2 ^ p = 0 := by
      apply Nat.eq_of_testBit_eq
      intro j
      rw [Nat.testBit_mod_two_pow, Nat.zero_testBit]
      by_cases hj : j < p
      · rw [BitVec.testBit_toNat, hmin j hj]; simp
      · simp [hj]
    have hodd : (m.toNat / 2 ^ p) % 2 = 1 := by
      have h1 := hspec
      rw [← BitVec.testBit_toNat, Nat.testBit_eq_decide_div_mod_eq] at h1
      simpa using h1
    obtain ⟨q, hq⟩ : ∃ q, m.toNat = 2 ^ p * (2 * q + 1) := by
      refine ⟨m.toNat / 2 ^ p / 2, ?_⟩
      have h2 := Nat.div_add_mod m.toNat (2 ^ p)
      rw [hmod] at h2
      have h3 := Nat.div_add_mod (m.toNat / 2 ^ p) 2
      rw [hodd] at h3
      rw [h3]; omega
    have hpos : 0 < 2 ^ p := Nat.two_pow_pos p
    have hsub : (m - 1).toNat = 2 ^ p * (2 * q) + (2 ^ p - 1) := by
      have h4 : m.toNat - 1 = 2 ^ p * (2 * q) + (2 ^ p - 1) := by
        rw [hq, Nat.mul_add]; omega
      have h5 := m.isLt
      have h6 : 0 < m.toNat := by rw [hq]; positivity
      rw [BitVec.toNat_sub]
      simp
      omega
    rw [← BitVec.testBit_toNat, hsub, Nat.testBit_two_pow_mul_add _ (by omega)]
    by_cases h1 : i < p
    · simp [h1, Nat.testBit_two_pow_sub_one]
    · simp only [h1, if_false]
      by_cases h2 : i = p
      · subst h2; simp
      · simp only [h2, if_false]
        have h7 : m.getLsbD i = (2 * q + 1).testBit (i - p) := by
          rw [← BitVec.testBit_toNat, hq, Nat.testBit_two_pow_mul]
          simp; omega
        rw [h7]
        obtain ⟨k, hk⟩ : ∃ k, i - p = k + 1 := ⟨i - p - 1, by omega⟩
        rw [hk, Nat.testBit_succ, Nat.testBit_succ]
        congr 1
        omega

/-- bits of `(1 << p) - 1` -/
theorem getLsbD_lowMask {p : Nat} (hp : p < 64) (i : Nat) :
    ((1#64 <<< p) - 1).getLsbD i = decide (i < p) := by
  have h1 : ((1#64 <<< p) - 1).toNat = 2 ^ p - 1 := by
    have h2 : 2 ^ p < 2 ^ 64 := Nat.pow_lt_pow_right (by omega) hp
    have h3 : 0 < 2 ^ p := Nat.two_pow_pos p
    have h4 : (1#64 <<< p).toNat = 2 ^ p := by
      rw [BitVec.toNat_shiftLeft, Nat.shiftLeft_eq]
      have : (1#64).toNat = 1 := rfl
      rw [this, Nat.one_mul, Nat.mod_eq_of_lt h2]
    have h5 : (1 : U64).toNat = 1 := rfl
    rw [BitVec.toNat_sub, h4, h5]
    omega
  rw [← BitVec.testBit_toNat, h1, Nat.testBit_two_pow_sub_one]

/-- /repo/include/scaluq/util/utility.hpp:23-28, bit by bit -/
theorem getLsbD_insertZeroAt {p : Nat} (hp : p < 64) (b : U64) (i : Nat) (hi : i < 64) :
    (insertZeroAt b p).getLsbD i =
      if i < p then b.getLsbD i else if i = p then false else b.getLsbD (i - 1) := by
  unfold insertZeroAt
  simp only [BitVec.getLsbD_or, BitVec.getLsbD_and, getLsbD_lowMask hp i, BitVec.getLsbD_shiftLeft,
    BitVec.getLsbD_ushiftRight]
  by_cases h1 : i < p
  · have : i < p + 1 := by omega
    simp only [h1, this, hi]; simp
  · by_cases h2 : i = p
    · subst h2; simp
    · have h3 : ¬ i < p + 1 := by omega
      have h4 : p + (i - (p + 1)) = i - 1 := by omega
      simp only [h1, h2, h3, hi, h4]; simp

theorem insertZeroLoop_zero (b : U64) : insertZeroLoop b 0 = b := by
  rw [insertZeroLoop]; simp

/-- one iteration of the loop inserts a zero at the lowest set bit and clears that bit in the mask -/
theorem insertZeroLoop_step (b m : U64) (hm : m ≠ 0) : ∃ p m', p < 64 ∧ m.getLsbD p = true ∧
    (∀ i, i < p → m.getLsbD i = false) ∧
    (∀ i, m'.getLsbD i = (decide (i ≠ p) && m.getLsbD i)) ∧
    m'.toNat < m.toNat ∧
    insertZeroLoop b m = insertZeroLoop (insertZeroAt b p) m' := by
  obtain ⟨p, hp, hset, hlow, hsub⟩ := low_bit m hm
  refine ⟨p, m &&& (m - 1), hp, hset, hlow, ?_, ?_, ?_⟩
  · intro i
    by_cases hi : i < 64
    · rw [BitVec.getLsbD_and, hsub i hi]
      by_cases h1 : i < p
      · simp [h1, hlow i h1]
      · by_cases h2 : i = p
        · simp [h2]
        · simp [h1, h2]
    · simp [Nat.le_of_not_lt hi]
  · have h1 : (m &&& (m - 1)).toNat ≤ (m - 1).toNat := by
      rw [BitVec.toNat_and]; exact Nat.and_le_right
    have h2 : (m - 1).toNat < m.toNat := by
      have : m.toNat ≠ 0 := fun e => hm (BitVec.eq_of_toNat_eq (by simpa using e))
      rw [BitVec.toNat_sub]
      have := m.isLt
      simp
      omega
    omega
  · rw [insertZeroLoop, dif_neg hm]
    show insertZeroLoop _ _ = _
    congr 1
    apply U64.ext
    intro i hi
    rw [getLsbD_insertZeroAt hp b i hi]
    simp only [BitVec.getLsbD_or, BitVec.getLsbD_shiftLeft, BitVec.getLsbD_and, BitVec.getLsbD_not]
    by_cases h0 : i = 0
    · subst h0
      rw [hsub 0 hi]
      by_cases h1 : 0 < p
      · simp [h1, hlow 0 h1]
      · have : p = 0 := by omega
        subst this
        simp
    · have hi1 : i - 1 < 64 := by omega
      rw [hsub i hi, hsub (i - 1) hi1]
      by_cases h1 : i < p
      · have : i - 1 < p := by omega
        simp [h1, hi, hlow i h1, this, hlow (i-1) this]
      · by_cases h2 : i = p
        · subst h2
          have : i - 1 < i := by omega
          simp [this, hlow (i-1) this]
        · have h3 : ¬ (i - 1 < p) := by omega
          by_cases h4 : i - 1 = p
          · have h5 : ¬ i < 1 := by omega
            simp [h1, h2, h4, h5, hset, hi, hp]
          · have h5 : ¬ i < 1 := by omega
            simp [h1, h2, h3, h4, h5, hi, hi1]

theorem rank_clear {m m' : U64} {p : Nat} (hset : m.getLsbD p = true)
    (hm' : ∀ i, m'.getLsbD i = (decide (i ≠ p) && m.getLsbD i)) (i : Nat) :
    rank m i = rank m' i + if p < i then 1 else 0 := by
  induction i with
  | zero => simp [rank]
  | succ i ih =>
    rw [rank_succ, rank_succ, ih, hm' i]
    by_cases h : i = p
    · subst h; simp [hset]
    · by_cases h2 : p < i
      · have : p < i + 1 := by omega
        simp [h, h2, this]; ring
      · have : ¬ p < i + 1 := by omega
        simp [h, h2, this]

theorem rank_low {m : U64} {p : Nat} (hlow : ∀ i, i < p → m.getLsbD i = false) {i : Nat} (hi : i ≤ p) :
    rank m i = 0 := by
  have := rank_of_clear m (Nat.zero_le i) (fun k _ h => hlow k (by omega))
  simpa [rank] using this

/-- **Meaning of `insert_zero_at_mask_positions`**: bit `i` of the result is clear when `i` is in the mask and
otherwise is the bit of the argument at `i` minus the number of mask positions below `i`. -/
theorem getLsbD_insertZero (b m : U64) (i : Nat) (hi : i < 64) :
    (insertZero b m).getLsbD i = (!m.getLsbD i && b.getLsbD (i - rank m i)) := by
  unfold insertZero
  induction hn : m.toNat using Nat.strong_induction_on generalizing b m with
  | _ n ih =>
    by_cases hm : m = 0
    · subst hm
      have : rank 0 i = 0 := by simp [rank]
      rw [insertZeroLoop_zero, this]; simp
    · obtain ⟨p, m', hp, hset, hlow, hm', hlt, heq⟩ := insertZeroLoop_step b m hm
      rw [heq, ih m'.toNat (by omega) _ m' rfl, hm' i]
      have hr := rank_clear hset hm' i
      have hle := rank_le m' i
      rw [getLsbD_insertZeroAt hp _ _ (by omega)]
      by_cases h1 : i < p
      · have h2 : rank m i = 0 := rank_low hlow (by omega)
        have h3 : rank m' i = 0 := by omega
        have h4 : i ≠ p := by omega
        simp [h2, h3, h1, h4]
      · by_cases h2 : i = p
        · subst h2
          have h3 : rank m i = 0 := rank_low hlow (by omega)
          have h4 : rank m' i = 0 := by omega
          simp [h4, hset]
        · have h3 : p < i := by omega
          -- at least p+1 positions below i are outside m'
          have h4 : p + 1 + rank m' i ≤ i := by
            have hlow' : ∀ k, k < p + 1 → m'.getLsbD k = false := by
              intro k hk
              rw [hm' k]
              by_cases hkp : k = p
              · simp [hkp]
              · simp [hlow k (by omega)]
            have e1 : rank m' (p + 1) = 0 := rank_low hlow' (le_refl _)
            have : rank m' i ≤ rank m' (p + 1) + (i - (p + 1)) := by
              have := Nat.count_add (fun k => m'.getLsbD k = true) (p + 1) (i - (p + 1))
              have e2 : p + 1 + (i - (p + 1)) = i := by omega
              rw [e2] at this
              unfold rank
              rw [this]
              have := Nat.count_le (p := fun k => m'.getLsbD (p + 1 + k) = true) (n := i - (p + 1))
              omega
            omega
          have h5 : ¬ (i - rank m' i < p) := by omega
          have h6 : i - rank m' i ≠ p := by omega
          have h7 : i - rank m' i - 1 = i - rank m i := by
            rw [hr]; simp [h3]; omega
          simp only [h5, h6, if_false, h7]
          simp [h2]

end Verif
