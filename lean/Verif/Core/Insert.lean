import Verif.Core.Bits

/-! # `insert_zero_at_mask_positions` enumerates the indices whose masked bits are clear -/

namespace Verif
attribute [-simp] BitVec.getLsbD_eq_getElem

theorem toNat_lt_two_pow_iff (a : U64) (k : Nat) :
    a.toNat < 2 ^ k ↔ ∀ i, k ≤ i → a.getLsbD i = false := by
  constructor
  · intro h i hi
    rw [← BitVec.testBit_toNat]
    exact Nat.testBit_lt_two_pow (lt_of_lt_of_le h (Nat.pow_le_pow_right (by omega) hi))
  · intro h
    apply Nat.lt_pow_two_of_testBit
    intro i hi
    rw [BitVec.testBit_toNat]; exact h i hi

theorem popcount_clear {m m' : U64} {p : Nat} (hp : p < 64) (hset : m.getLsbD p = true)
    (hm' : ∀ i, m'.getLsbD i = (decide (i ≠ p) && m.getLsbD i)) : popcount m = popcount m' + 1 := by
  have := rank_clear hset hm' 64
  simpa [popcount_eq_rank, hp] using this

theorem popcount_zero : popcount 0 = 0 := by simp [popcount]

theorem insertZeroAt_inj {p : Nat} (hp : p < 64) {b b' : U64} (hb : b.getLsbD 63 = false)
    (hb' : b'.getLsbD 63 = false) (h : insertZeroAt b p = insertZeroAt b' p) : b = b' := by
  apply U64.ext
  intro i hi
  by_cases h1 : i < p
  · have := congrArg (fun x => BitVec.getLsbD x i) h
    simpa [getLsbD_insertZeroAt hp _ i hi, h1] using this
  · by_cases h2 : i = 63
    · subst h2; rw [hb, hb']
    · have := congrArg (fun x => BitVec.getLsbD x (i + 1)) h
      have h3 : ¬ (i + 1 < p) := by omega
      have h4 : i + 1 ≠ p := by omega
      simpa [getLsbD_insertZeroAt hp _ (i+1) (by omega), h3, h4] using this

/-- different (small enough) arguments give different results -/
theorem insertZero_inj {b b' m : U64} (hb : b.toNat < 2 ^ (64 - popcount m))
    (hb' : b'.toNat < 2 ^ (64 - popcount m)) (h : insertZero b m = insertZero b' m) : b = b' := by
  unfold insertZero at h
  induction hn : m.toNat using Nat.strong_induction_on generalizing b b' m with
  | _ n ih =>
    by_cases hm : m = 0
    · subst hm
      rwa [insertZeroLoop_zero, insertZeroLoop_zero] at h
    · obtain ⟨p, m', hp, hset, hlow, hm', hlt, heq⟩ := insertZeroLoop_step b m hm
      obtain ⟨q, m'', hq, hqset, hqlow, hm'', hqlt, hqeq⟩ := insertZeroLoop_step b' m hm
      have hpq : p = q := by
        rcases Nat.lt_trichotomy p q with h1 | h1 | h1
        · rw [hqlow p h1] at hset; cases hset
        · exact h1
        · rw [hlow q h1] at hqset; cases hqset
      subst hpq
      have hmm : m'' = m' := U64.ext (fun i _ => by rw [hm', hm''])
      subst hmm
      rw [heq, hqeq] at h
      have hpc := popcount_clear hp hset hm'
      have hpl := popcount_le m
      have bound : ∀ x : U64, x.toNat < 2 ^ (64 - popcount m) →
          (insertZeroAt x p).toNat < 2 ^ (64 - popcount m'') := by
        intro x hx
        rw [toNat_lt_two_pow_iff] at hx ⊢
        intro i hi
        by_cases hi64 : i < 64
        · rw [getLsbD_insertZeroAt hp x i hi64]
          have e1 := hx i (by omega)
          have e2 := hx (i - 1) (by omega)
          simp [e1, e2]
        · exact getLsbD_high _ (by omega)
      have := ih m''.toNat (by omega) (bound b hb) (bound b' hb') h rfl
      exact insertZeroAt_inj hp ((toNat_lt_two_pow_iff _ _).1 hb 63 (by omega))
        ((toNat_lt_two_pow_iff _ _).1 hb' 63 (by omega)) this

/-- every index whose masked bits are clear is reached -/
theorem insertZero_surj (j m : U64) (h : j &&& m = 0) :
    ∃ b : U64, b.toNat < 2 ^ (64 - popcount m) ∧ insertZero b m = j := by
  induction hn : m.toNat using Nat.strong_induction_on generalizing m with
  | _ n ih =>
    by_cases hm : m = 0
    · subst hm
      refine ⟨j, ?_, ?_⟩
      · rw [popcount_zero]; exact j.isLt
      · exact insertZeroLoop_zero j
    · obtain ⟨p, m', hp, hset, hlow, hm', hlt, -⟩ := insertZeroLoop_step j m hm
      have hbit : ∀ i, (j.getLsbD i && m.getLsbD i) = false := by
        intro i
        have := congrArg (fun x => BitVec.getLsbD x i) h
        simpa [BitVec.getLsbD_and] using this
      have hj' : j &&& m' = 0 := by
        apply U64.ext; intro i hi
        have := hbit i
        simp only [BitVec.getLsbD_and, hm' i]
        cases hji : j.getLsbD i <;> cases hmi : m.getLsbD i <;> simp_all
      obtain ⟨c, hc, hcj⟩ := ih m'.toNat (by omega) m' hj' rfl
      have hpc := popcount_clear hp hset hm'
      have hpl := popcount_le m
      -- bit p of c is clear
      have hlow' : ∀ k, k < p → m'.getLsbD k = false := fun k hk => by rw [hm' k, hlow k hk]; simp
      have hcp : c.getLsbD p = false := by
        have h1 := getLsbD_insertZero c m' p hp
        rw [hcj, rank_low hlow' (le_refl p), hm' p] at h1
        have h2 := hbit p
        rw [hset] at h2
        simp only [Bool.and_true] at h2
        rw [h2] at h1
        simpa using h1.symm
      -- remove bit p from c
      let lowm : U64 := (1#64 <<< p) - 1
      let b : U64 := ((c >>> 1) &&& ~~~lowm) ||| (c &&& lowm)
      have hbbit : ∀ i, i < 64 → b.getLsbD i = if i < p then c.getLsbD i else c.getLsbD (i + 1) := by
        intro i hi
        simp only [b, lowm, BitVec.getLsbD_or, BitVec.getLsbD_and, BitVec.getLsbD_not,
          getLsbD_lowMask hp, BitVec.getLsbD_ushiftRight]
        by_cases h1 : i < p
        · simp [h1]
        · simp [h1, hi, Nat.add_comm]
      have hcb : insertZeroAt b p = c := by
        apply U64.ext; intro i hi
        rw [getLsbD_insertZeroAt hp b i hi]
        by_cases h1 : i < p
        · simp [h1, hbbit i hi]
        · by_cases h2 : i = p
          · subst h2; simp [hcp]
          · have h3 : ¬ (i - 1 < p) := by omega
            have h4 : i - 1 + 1 = i := by omega
            simp [h1, h2, hbbit (i-1) (by omega), h3, h4]
      refine ⟨b, ?_, ?_⟩
      · rw [toNat_lt_two_pow_iff] at hc ⊢
        intro i hi
        by_cases hi64 : i < 64
        · rw [hbbit i hi64]
          by_cases h1 : i < p
          · by_cases h5 : i + 1 < p
            · -- bit p is clear in c up to the bound, so this bit is beyond the bound of m
              have : p ≤ 64 - popcount m := by
                have hr : rank m 64 ≤ 64 - p := by
                  have e := Nat.count_add (fun k => m.getLsbD k = true) p (64 - p)
                  have e2 : p + (64 - p) = 64 := by omega
                  rw [e2] at e
                  have e3 : Nat.count (fun k => m.getLsbD k = true) p = 0 := rank_low hlow (le_refl p)
                  have e4 := Nat.count_le (p := fun k => m.getLsbD (p + k) = true) (n := 64 - p)
                  unfold rank; omega
                rw [popcount_eq_rank]; omega
              omega
            · have : p ≤ 64 - popcount m := by
                have hr : rank m 64 ≤ 64 - p := by
                  have e := Nat.count_add (fun k => m.getLsbD k = true) p (64 - p)
                  have e2 : p + (64 - p) = 64 := by omega
                  rw [e2] at e
                  have e3 : Nat.count (fun k => m.getLsbD k = true) p = 0 := rank_low hlow (le_refl p)
                  have e4 := Nat.count_le (p := fun k => m.getLsbD (p + k) = true) (n := 64 - p)
                  unfold rank; omega
                rw [popcount_eq_rank]; omega
              omega
          · simp [h1, hc (i + 1) (by omega)]
        · exact getLsbD_high _ (by omega)
      · obtain ⟨q, m'', hq, hqset, hqlow, hm'', hqlt, hqeq⟩ := insertZeroLoop_step b m hm
        have hpq : p = q := by
          rcases Nat.lt_trichotomy p q with h1 | h1 | h1
          · rw [hqlow p h1] at hset; cases hset
          · exact h1
          · rw [hlow q h1] at hqset; cases hqset
        subst hpq
        have hmm : m'' = m' := U64.ext (fun i _ => by rw [hm', hm''])
        subst hmm
        unfold insertZero at hcj ⊢
        rw [hqeq, hcb, hcj]

theorem insertZero_and_mask (b m : U64) : insertZero b m &&& m = 0 := by
  apply U64.ext; intro i hi
  rw [BitVec.getLsbD_and, getLsbD_insertZero b m i hi]
  cases m.getLsbD i <;> simp

theorem rank_eq_popcount {m : U64} {n i : Nat} (hm : m.toNat < 2 ^ n) (hn : n ≤ i) :
    rank m i = popcount m := by
  rw [toNat_lt_two_pow_iff] at hm
  rw [popcount_eq_rank]
  rcases Nat.le_total i 64 with h | h
  · exact (rank_of_clear m h (fun k h1 _ => hm k (by omega))).symm
  · exact rank_of_clear m h (fun k h1 _ => getLsbD_high m h1)

theorem popcount_le_of_lt {m : U64} {n : Nat} (hm : m.toNat < 2 ^ n) : popcount m ≤ n := by
  rw [← rank_eq_popcount hm (le_refl n)]; exact rank_le m n

/-- the part of the index above the mask is kept -/
theorem insertZero_div {b m : U64} {n : Nat} (hm : m.toNat < 2 ^ n)
    (hb : b.toNat < 2 ^ (64 - popcount m)) :
    (insertZero b m).toNat / 2 ^ n = b.toNat / 2 ^ (n - popcount m) := by
  apply Nat.eq_of_testBit_eq
  intro j
  have hpn := popcount_le_of_lt hm
  rw [Nat.testBit_div_two_pow, Nat.testBit_div_two_pow, BitVec.testBit_toNat, BitVec.testBit_toNat]
  by_cases h : j + n < 64
  · rw [getLsbD_insertZero _ _ _ h, rank_eq_popcount hm (by omega),
      (toNat_lt_two_pow_iff _ _).1 hm (j + n) (by omega)]
    have : j + n - popcount m = j + (n - popcount m) := by omega
    simp [this]
  · rw [getLsbD_high _ (by omega), (toNat_lt_two_pow_iff _ _).1 hb _ (by omega)]

/-- Number of work items of a kernel over `B * 2^n` amplitudes with `popcount M` fixed bits:
`state.flat_dim() >> std::popcount(target_mask | control_mask)`, e.g.
/repo/src/gate/update_ops_standard.cpp:24. -/
def workItems (flatDim : Nat) (M : U64) : Nat := flatDim >>> popcount M

theorem workItems_eq {B n : Nat} {M : U64} (hM : M.toNat < 2 ^ n) :
    workItems (B * 2 ^ n) M = B * 2 ^ (n - popcount M) := by
  have hpn := popcount_le_of_lt hM
  unfold workItems
  rw [Nat.shiftRight_eq_div_pow]
  have : 2 ^ n = 2 ^ (n - popcount M) * 2 ^ popcount M := by
    rw [← Nat.pow_add]; congr 1; omega
  rw [this, ← Nat.mul_assoc, Nat.mul_div_cancel _ (Nat.two_pow_pos _)]

theorem item_bound {B n : Nat} {M : U64} (hM : M.toNat < 2 ^ n) (hsize : B * 2 ^ n ≤ 2 ^ 64)
    {it : Nat} (hit : it < workItems (B * 2 ^ n) M) :
    it < 2 ^ (64 - popcount M) := by
  have hpn := popcount_le_of_lt hM
  rw [workItems_eq hM] at hit
  have h1 : B * 2 ^ (n - popcount M) * 2 ^ popcount M ≤ 2 ^ (64 - popcount M) * 2 ^ popcount M := by
    rw [Nat.mul_assoc, ← Nat.pow_add, ← Nat.pow_add]
    have e1 : n - popcount M + popcount M = n := by omega
    have e2 : 64 - popcount M + popcount M = 64 := by have := popcount_le M; omega
    rw [e1, e2]; exact hsize
  have := Nat.le_of_mul_le_mul_right h1 (Nat.two_pow_pos _)
  omega

theorem toNat_ofNat_of_lt {x k : Nat} (h : x < 2 ^ (64 - k)) : (BitVec.ofNat 64 x).toNat = x := by
  rw [BitVec.toNat_ofNat]
  apply Nat.mod_eq_of_lt
  exact lt_of_lt_of_le h (Nat.pow_le_pow_right (by omega) (by omega))

/-- work items reach only indices inside the state with masked bits clear -/
theorem item_mem {B n : Nat} {M : U64} (hM : M.toNat < 2 ^ n) (hsize : B * 2 ^ n ≤ 2 ^ 64)
    {it : Nat} (hit : it < workItems (B * 2 ^ n) M) :
    (insertZero (BitVec.ofNat 64 it) M).toNat < B * 2 ^ n ∧ insertZero (BitVec.ofNat 64 it) M &&& M = 0 := by
  refine ⟨?_, insertZero_and_mask _ _⟩
  have hb := item_bound hM hsize hit
  rw [← Nat.div_lt_iff_lt_mul (Nat.two_pow_pos n)]
  rw [insertZero_div hM (by rw [toNat_ofNat_of_lt hb]; exact hb), toNat_ofNat_of_lt hb]
  rw [workItems_eq hM] at hit
  rw [Nat.div_lt_iff_lt_mul (Nat.two_pow_pos _)]
  exact hit

/-- different work items reach different indices -/
theorem item_inj {B n : Nat} {M : U64} (hM : M.toNat < 2 ^ n) (hsize : B * 2 ^ n ≤ 2 ^ 64)
    {it it' : Nat} (hit : it < workItems (B * 2 ^ n) M) (hit' : it' < workItems (B * 2 ^ n) M)
    (h : insertZero (BitVec.ofNat 64 it) M = insertZero (BitVec.ofNat 64 it') M) : it = it' := by
  have hb := item_bound hM hsize hit
  have hb' := item_bound hM hsize hit'
  have := insertZero_inj (by rw [toNat_ofNat_of_lt hb]; exact hb) (by rw [toNat_ofNat_of_lt hb']; exact hb') h
  have := congrArg BitVec.toNat this
  rwa [toNat_ofNat_of_lt hb, toNat_ofNat_of_lt hb'] at this

/-- every index inside the state with masked bits clear is reached by a work item -/
theorem item_surj {B n : Nat} {M : U64} (hM : M.toNat < 2 ^ n)
    {j : U64} (hj : j.toNat < B * 2 ^ n) (hjM : j &&& M = 0) :
    ∃ it, it < workItems (B * 2 ^ n) M ∧ insertZero (BitVec.ofNat 64 it) M = j := by
  obtain ⟨b, hb, hbj⟩ := insertZero_surj j M hjM
  refine ⟨b.toNat, ?_, by rw [BitVec.ofNat_toNat, BitVec.setWidth_eq, hbj]⟩
  rw [workItems_eq hM, ← Nat.div_lt_iff_lt_mul (Nat.two_pow_pos _), ← insertZero_div hM hb, hbj,
    Nat.div_lt_iff_lt_mul (Nat.two_pow_pos _)]
  exact hj

end Verif
