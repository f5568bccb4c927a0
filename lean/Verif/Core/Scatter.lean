import Verif.Spec.Algebra

/-! # Scattering the bits of a row index over the target bits -/

namespace Verif
open Spec
attribute [-simp] BitVec.getLsbD_eq_getElem

/-- `t` is the mask of the (increasing) list `ts` -/
structure MaskOf (t : U64) (ts : List Nat) : Prop where
  sorted : ts.Pairwise (· < ·)
  lt : ∀ q ∈ ts, q < 64
  bits : ∀ i, t.getLsbD i = decide (i ∈ ts)

theorem MaskOf.targetsOK {t : U64} {ts : List Nat} (h : MaskOf t ts) : TargetsOK ts :=
  ⟨h.sorted.imp (fun hab => Nat.ne_of_lt hab), h.lt⟩

theorem rank_sorted {t : U64} {ts : List Nat} (h : MaskOf t ts) {k : Nat} (hk : k < ts.length) :
    rank t ts[k] = k := by
  have hs := List.pairwise_iff_getElem.1 h.sorted
  induction k with
  | zero =>
    rw [rank_of_clear t (Nat.zero_le _)]
    · rfl
    · intro i _ hi
      rw [h.bits]
      simp only [decide_eq_false_iff_not]
      intro hm
      obtain ⟨l, hl, rfl⟩ := List.getElem_of_mem hm
      rcases Nat.eq_zero_or_pos l with rfl | hl0
      · omega
      · have := hs 0 l hk hl hl0; omega
  | succ k ih =>
    have hk' : k < ts.length := by omega
    have hlt := hs k (k + 1) hk' hk (by omega)
    rw [rank_of_clear t (i := ts[k] + 1) hlt, rank_succ, ih hk', h.bits]
    · simp
    · intro i hi1 hi2
      rw [h.bits]
      simp only [decide_eq_false_iff_not]
      intro hm
      obtain ⟨l, hl, rfl⟩ := List.getElem_of_mem hm
      rcases Nat.lt_trichotomy l k with h1 | h1 | h1
      · have := hs l k hl hk' h1; omega
      · subst h1; omega
      · rcases Nat.lt_or_ge (k + 1) l with h2 | h2
        · have := hs (k + 1) l hk hl h2; omega
        · have : l = k + 1 := by omega
          subst this; omega

theorem popcount_maskOf {t : U64} {ts : List Nat} (h : MaskOf t ts) : popcount t = ts.length := by
  unfold popcount
  rw [Nat.count_eq_card_filter_range, ← List.toFinset_card_of_nodup h.targetsOK.nodup]
  congr 1
  ext i
  simp only [Finset.mem_filter, Finset.mem_range, List.mem_toFinset, h.bits, decide_eq_true_eq]
  exact ⟨fun h => h.2, fun hm => ⟨h.lt i hm, hm⟩⟩

theorem getLsbD_outer {t : U64} {n : Nat} (hn : n < 64) (i : Nat) :
    (~~~t &&& ((1#64 <<< n) - 1)).getLsbD i = (decide (i < n) && !t.getLsbD i) := by
  have e : (1#64 <<< n) - 1 = BitVec.ofNat 64 (2 ^ n - 1) := by
    have h1 : (1#64 <<< n) = BitVec.ofNat 64 (2 ^ n) := by
      apply BitVec.eq_of_toNat_eq
      rw [BitVec.toNat_shiftLeft, BitVec.toNat_ofNat, Nat.shiftLeft_eq]
      simp
    rw [h1]
    apply BitVec.eq_of_toNat_eq
    have hp : 2 ^ n < 2 ^ 64 := Nat.pow_lt_pow_right (by omega) hn
    have hpos := Nat.two_pow_pos n
    rw [BitVec.toNat_sub, BitVec.toNat_ofNat, BitVec.toNat_ofNat, Nat.mod_eq_of_lt hp,
      Nat.mod_eq_of_lt (by omega : 2 ^ n - 1 < 2 ^ 64)]
    have h1' : (1 : U64).toNat = 1 := rfl
    rw [h1']
    have : 2 ^ 64 - 1 + 2 ^ n = 2 ^ 64 + (2 ^ n - 1) := by omega
    rw [this, Nat.add_mod_left, Nat.mod_eq_of_lt (by omega)]
  rw [BitVec.getLsbD_and, BitVec.getLsbD_not, e, BitVec.getLsbD_ofNat, Nat.testBit_two_pow_sub_one]
  by_cases h64 : i < 64
  · simp [h64, Bool.and_comm]
  · have : ¬ i < n := by omega
    simp [h64, this]

/-- rank of the complement mask below `n` -/
theorem rank_outer {t : U64} {n : Nat} (hn : n < 64) {i : Nat} (hi : i ≤ n) :
    rank (~~~t &&& ((1#64 <<< n) - 1)) i + rank t i = i := by
  induction i with
  | zero => rfl
  | succ i ih =>
    have := ih (by omega)
    rw [rank_succ, rank_succ, getLsbD_outer hn]
    revert this
    generalize rank (~~~t &&& ((1#64 <<< n) - 1)) i = r
    intro this
    cases t.getLsbD i <;> simp [show i < n by omega] <;> omega

/-- `insert_zero_at_mask_positions(x, outer_mask) | basis` writes the bits of `x` into the target bits -/
theorem scatter_eq {t : U64} {ts : List Nat} {n : Nat} (h : MaskOf t ts) (hn : n < 64) (hts : ∀ q ∈ ts, q < n)
    {b : U64} (hb : ∀ i, t.getLsbD i = true → b.getLsbD i = false) {x : Nat} (hx : x < 2 ^ ts.length) :
    insertZero (BitVec.ofNat 64 x) (~~~t &&& ((1#64 <<< n) - 1)) ||| b = putBits b ts x := by
  apply U64.ext; intro i hi
  rw [BitVec.getLsbD_or, getLsbD_insertZero _ _ _ hi, getLsbD_outer hn]
  by_cases hm : i ∈ ts
  · obtain ⟨k, hk, rfl⟩ := List.getElem_of_mem hm
    rw [getLsbD_putBits_get b h.targetsOK.nodup h.lt _ hk]
    have hlt := hts _ hm
    have ht : t.getLsbD ts[k] = true := by rw [h.bits]; simp
    rw [hb _ ht, ht]
    have hr := rank_outer (t := t) hn (i := ts[k]) (by omega)
    rw [rank_sorted h hk] at hr
    have e : ts[k] - rank (~~~t &&& ((1#64 <<< n) - 1)) ts[k] = k := by omega
    rw [e, BitVec.getLsbD_ofNat]
    have : k < 64 := by omega
    simp [this]
  · rw [getLsbD_putBits_notMem b h.lt _ hm]
    have ht : t.getLsbD i = false := by rw [h.bits]; simpa using hm
    rw [ht]
    by_cases hin : i < n
    · simp [hin]
    · have e1 : rank (~~~t &&& ((1#64 <<< n) - 1)) i = rank (~~~t &&& ((1#64 <<< n) - 1)) n := by
        apply rank_of_clear _ (by omega)
        intro k hk _
        rw [getLsbD_outer hn]; simp; omega
      have e2 := rank_outer (t := t) hn (i := n) (le_refl n)
      have e3 : rank t n = ts.length := by
        rw [← popcount_maskOf h, popcount_eq_rank]
        symm
        apply rank_of_clear _ (by omega)
        intro k hk _
        rw [h.bits]
        simp only [decide_eq_false_iff_not]
        intro hm'
        have := hts k hm'; omega
      have hz : (BitVec.ofNat 64 x).getLsbD (i - rank (~~~t &&& ((1#64 <<< n) - 1)) i) = false := by
        rw [BitVec.getLsbD_ofNat, Nat.testBit_lt_two_pow]
        · simp
        · refine lt_of_lt_of_le hx (Nat.pow_le_pow_right (by omega) ?_)
          rw [e1]; omega
      rw [hz]; simp

end Verif
