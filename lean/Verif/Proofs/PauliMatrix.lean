import Verif.Proofs.PauliCtor

/-! # Matrices of Pauli operators -/

namespace Verif.Proofs
open Verif Verif.Spec Verif.Model
attribute [-simp] BitVec.getLsbD_eq_getElem

/-! ## population counts of compressed indices -/

theorem popcount_cons {b : Bool} {m : Nat} (hm : m < 2 ^ 63) :
    popcount (BitVec.ofNat 64 (b.toNat + 2 * m)) = b.toNat + popcount (BitVec.ofNat 64 m) := by
  rw [popcount_eq_sum, popcount_eq_sum, Finset.sum_range_succ' _ 63, Finset.sum_range_succ (fun q => ((BitVec.ofNat 64 m).getLsbD q).toNat) 63]
  have h63 : (BitVec.ofNat 64 m).getLsbD 63 = false := by
    rw [BitVec.getLsbD_ofNat, Nat.testBit_lt_two_pow hm]; simp
  have h0 : (BitVec.ofNat 64 (b.toNat + 2 * m)).getLsbD 0 = b := by
    rw [BitVec.getLsbD_ofNat, Nat.testBit_zero]
    cases b <;> simp
  have hs : ∀ k ∈ Finset.range 63, ((BitVec.ofNat 64 (b.toNat + 2 * m)).getLsbD (k + 1)).toNat =
      ((BitVec.ofNat 64 m).getLsbD k).toNat := by
    intro k hk
    have hk' := Finset.mem_range.1 hk
    rw [BitVec.getLsbD_ofNat, BitVec.getLsbD_ofNat, Nat.testBit_succ]
    have e : (b.toNat + 2 * m) / 2 = m := by have := Bool.toNat_le b; omega
    have h1 : k + 1 < 64 := by omega
    have h2 : k < 64 := by omega
    simp [e, h1, h2]
  rw [Finset.sum_congr rfl hs, h63, h0]
  simp [add_comm]

theorem popcount_split (a : U64) {q : Nat} (hq : q < 64) :
    popcount a = (a.getLsbD q).toNat + popcount (setBit a q false) := by
  cases h : a.getLsbD q with
  | true =>
    rw [popcount_clear hq h (m' := setBit a q false)]
    · simp [add_comm]
    · intro i
      rw [getLsbD_setBit _ hq]
      by_cases e : i = q <;> simp [e]
  | false =>
    have : setBit a q false = a := by have := setBit_self a hq; rwa [h] at this
    rw [this]; simp

theorem popcount_getBits {ts : List Nat} (h : TargetsOK ts) (hlen : ts.length ≤ 64) (a : U64)
    (hsup : ∀ i, a.getLsbD i = true → i ∈ ts) : popcount (BitVec.ofNat 64 (getBits a ts)) = popcount a := by
  induction ts generalizing a with
  | nil =>
    have : a = 0 := by
      apply U64.ext; intro i _
      cases hh : a.getLsbD i with
      | false => simp
      | true => exact absurd (hsup i hh) (by simp)
    rw [this]; rfl
  | cons q qs ih =>
    have hq : q < 64 := h.lt q (by simp)
    have hnd := List.nodup_cons.1 h.nodup
    have hlt : getBits a qs < 2 ^ 63 := by
      have := getBits_lt a qs
      refine lt_of_lt_of_le this (Nat.pow_le_pow_right (by omega) ?_)
      simp at hlen; omega
    simp only [getBits]
    rw [popcount_cons hlt, popcount_split a hq]
    congr 1
    have e : getBits a qs = getBits (setBit a q false) qs := by
      apply getBits_congr
      intro p hp
      rw [getLsbD_setBit _ hq, if_neg]
      rintro rfl; exact hnd.1 hp
    rw [e]
    apply ih ⟨hnd.2, fun p hp => h.lt p (by simp [hp])⟩ (by simp at hlen; omega)
    intro i hi
    rw [getLsbD_setBit _ hq] at hi
    by_cases e : i = q
    · simp [e] at hi
    · rw [if_neg e] at hi
      have := hsup i hi
      simp [e] at this; exact this

/-! ## triplets -/

theorem foldl_triplets (col : Nat → Nat) (val : Nat → ℂ) (N : Nat) (r s : Nat) :
    (((List.range N).map (fun i => (⟨i, col i, val i⟩ : Triplet))).foldl
      (fun M t => fun r s => if r = t.row ∧ s = t.col then t.value else M r s) (fun _ _ => (0 : ℂ))) r s =
    if r < N ∧ s = col r then val r else 0 := by
  induction N with
  | zero => simp
  | succ N ih =>
    rw [List.range_succ, List.map_append, List.foldl_append]
    simp only [List.map_cons, List.map_nil, List.foldl_cons, List.foldl_nil]
    by_cases h : r = N
    · subst h
      by_cases h2 : s = col r
      · simp [h2]
      · rw [if_neg (by simp [h2]), ih, if_neg (by simp), if_neg (by simp [h2])]
    · rw [if_neg (by simp [h]), ih]
      have : r < N + 1 ↔ r < N := by omega
      simp [this]

theorem fill_triplets {dim : Nat} (col : Nat → Nat) (val : Nat → ℂ) (hcol : ∀ i, i < dim → col i < dim) :
    ∃ M, fillMatrix dim ((List.range dim).map (fun i => (⟨i, col i, val i⟩ : Triplet))) = .ok M ∧
      M.rows = dim ∧ M.cols = dim ∧ ∀ r s, M.entry r s = if r < dim ∧ s = col r then val r else 0 := by
  unfold fillMatrix
  rw [if_pos]
  · exact ⟨_, rfl, rfl, rfl, foldl_triplets col val dim⟩
  · rw [List.all_eq_true]
    intro t ht
    rw [List.mem_map] at ht
    obtain ⟨i, hi, rfl⟩ := ht
    have := List.mem_range.1 hi
    simp only [decide_eq_true_eq]
    exact ⟨this, hcol i this⟩

theorem getBits_xor (a b : U64) (ts : List Nat) : getBits a ts ^^^ getBits b ts = getBits (a ^^^ b) ts := by
  apply Nat.eq_of_testBit_eq
  intro k
  rw [Nat.testBit_xor, testBit_getBits, testBit_getBits, testBit_getBits]
  cases ts[k]? <;> simp [BitVec.getLsbD_xor]

theorem getBits_and (a b : U64) (ts : List Nat) : getBits a ts &&& getBits b ts = getBits (a &&& b) ts := by
  apply Nat.eq_of_testBit_eq
  intro k
  rw [Nat.testBit_and, testBit_getBits, testBit_getBits, testBit_getBits]
  cases ts[k]? <;> simp [BitVec.getLsbD_and]

theorem ofNat_and (a b : Nat) : BitVec.ofNat 64 a &&& BitVec.ofNat 64 b = BitVec.ofNat 64 (a &&& b) := by
  apply U64.ext; intro i hi
  simp [BitVec.getLsbD_and, BitVec.getLsbD_ofNat, hi]

theorem ofNat_xor (a b : Nat) : BitVec.ofNat 64 a ^^^ BitVec.ofNat 64 b = BitVec.ofNat 64 (a ^^^ b) := by
  apply U64.ext; intro i hi
  simp [BitVec.getLsbD_xor, BitVec.getLsbD_ofNat, hi]

theorem getBits_toNat {ts : List Nat} (hlen : ts.length ≤ 64) (a : U64) :
    (BitVec.ofNat 64 (getBits a ts)).toNat = getBits a ts := by
  rw [BitVec.toNat_ofNat, Nat.mod_eq_of_lt]
  exact lt_of_lt_of_le (getBits_lt a ts) (Nat.pow_le_pow_right (by omega) hlen)

/-- the sign written as `1 - 2 * (popcount % 2)` -/
theorem int_sign (m : Nat) : ((1 - 2 * (m % 2 : Nat) : Int) : ℂ) = Complex.I ^ (2 * (m : ℤ)) := by
  rw [I_zpow_two_mul]
  rcases Nat.mod_two_eq_zero_or_one m with h | h
  · rw [h, (Nat.even_iff.2 h).neg_one_pow]; simp
  · rw [h, (Nat.odd_iff.2 h).neg_one_pow]; norm_num

/-- the matrix filled from the triplets of compressed masks is the matrix of the Pauli string -/
theorem tripletMatrix {ts : List Nat} (h : TargetsOK ts) (hlen : ts.length ≤ 64) {x z : U64}
    (hx : ∀ i, x.getLsbD i = true → i ∈ ts) (hz : ∀ i, z.getLsbD i = true → i ∈ ts) (coef : ℂ) :
    ∃ M, fillMatrix (2 ^ ts.length) ((triplets (2 ^ ts.length) (BitVec.ofNat 64 (getBits x ts))
        (BitVec.ofNat 64 (getBits z ts)) (phaseM90 (popcount (x &&& z)))).map
        (fun t => ⟨t.row, t.col, t.value * coef⟩)) = .ok M ∧
      M.rows = 2 ^ ts.length ∧ M.cols = 2 ^ ts.length ∧
      ∀ cs ψ, applyMat ts M.entry cs ψ = fun j => if CtrlOK cs j then coef * pauliAct x z ψ j else ψ j := by
  unfold triplets
  rw [List.map_map]
  obtain ⟨M, h1, h2, h3, h4⟩ := fill_triplets (dim := 2 ^ ts.length)
    (fun i => (BitVec.ofNat 64 i ^^^ BitVec.ofNat 64 (getBits x ts)).toNat)
    (fun i => phaseM90 (popcount (x &&& z)) *
      ((1 - 2 * (popcount (BitVec.ofNat 64 i &&& BitVec.ofNat 64 (getBits z ts)) % 2 : Nat) : Int) : ℂ) * coef) (by
      intro i hi
      rw [ofNat_xor]
      refine lt_of_le_of_lt (Nat.mod_le _ _) ?_
      exact Nat.xor_lt_two_pow hi (getBits_lt x ts))
  refine ⟨M, h1, h2, h3, ?_⟩
  intro cs ψ
  funext j
  unfold applyMat
  by_cases hc : CtrlOK cs j
  · rw [if_pos hc, if_pos hc, Finset.sum_eq_single (getBits (j ^^^ x) ts)]
    · rw [h4, if_pos, ofNat_and, getBits_and, popcount_getBits h hlen, int_sign, phaseM90_eq]
      · have e : putBits j ts (getBits (j ^^^ x) ts) = j ^^^ x := by
          rw [putBits_ext h _ (j' := j ^^^ x), putBits_getBits _ h]
          intro i hi
          rw [BitVec.getLsbD_xor]
          cases hh : x.getLsbD i with
          | false => simp
          | true => exact absurd (hx i hh) hi
        rw [e]
        unfold pauliAct pauliExp
        rw [I_zpow_add]; ring
      · intro i hi
        rw [BitVec.getLsbD_and, Bool.and_eq_true] at hi
        exact hz i hi.2
      · refine ⟨getBits_lt _ _, ?_⟩
        rw [ofNat_xor, getBits_xor, getBits_toNat (by omega)]
    · intro s hs hne
      rw [h4, if_neg, zero_mul]
      rintro ⟨-, e⟩
      apply hne
      rw [e, ofNat_xor, getBits_xor, getBits_toNat (by omega)]
    · intro hn
      exact absurd (Finset.mem_range.2 (getBits_lt _ _)) hn
  · rw [if_neg hc, if_neg hc]

/-! ## compressed masks -/

theorem compressMasks_bits (p : PauliOp) (qs : List Nat) (idx : Nat) (bm pm : U64) (hlen : idx + qs.length ≤ 64)
    (i : Nat) :
    (compressMasks p qs idx (bm, pm)).1.getLsbD i =
      (bm.getLsbD i || (decide (idx ≤ i) && (getBits p.x qs).testBit (i - idx))) ∧
    (compressMasks p qs idx (bm, pm)).2.getLsbD i =
      (pm.getLsbD i || (decide (idx ≤ i) && (getBits p.z qs).testBit (i - idx))) := by
  induction qs generalizing idx bm pm with
  | nil => simp [compressMasks, getBits]
  | cons q qs ih =>
    have hidx : idx < 64 := by simp at hlen; omega
    unfold compressMasks
    have hI := ih (idx + 1) (addBit bm idx (p.x.getLsbD q)) (addBit pm idx (p.z.getLsbD q))
      (by simp at hlen; omega)
    have ex : (if (p.x >>> q) &&& 1#64 ≠ 0 then bm ||| (1#64 <<< idx) else bm) = addBit bm idx (p.x.getLsbD q) := by
      unfold addBit
      exact if_congr (shr_test _ _) rfl rfl
    have ez : (if (p.z >>> q) &&& 1#64 ≠ 0 then pm ||| (1#64 <<< idx) else pm) = addBit pm idx (p.z.getLsbD q) := by
      unfold addBit
      exact if_congr (shr_test _ _) rfl rfl
    rw [ex, ez, hI.1, hI.2, getLsbD_addBit _ hidx, getLsbD_addBit _ hidx]
    have key : ∀ a : U64, (a.getLsbD q && decide (i = idx) || (decide (idx + 1 ≤ i) &&
        (getBits a qs).testBit (i - (idx + 1)))) =
        (decide (idx ≤ i) && (getBits a (q :: qs)).testBit (i - idx)) := by
      intro a
      rcases Nat.lt_trichotomy i idx with h | h | h
      · have h1 : ¬ idx ≤ i := by omega
        have h2 : ¬ idx + 1 ≤ i := by omega
        have h3 : i ≠ idx := by omega
        simp [h1, h2, h3]
      · subst h
        have h2 : ¬ i + 1 ≤ i := by omega
        simp only [h2, decide_true, decide_false, Bool.false_and, Bool.or_false, Bool.and_true, Nat.sub_self,
          le_refl, Bool.true_and]
        rw [testBit_getBits]; simp
      · have h1 : idx ≤ i := by omega
        have h2 : idx + 1 ≤ i := by omega
        have h3 : i ≠ idx := by omega
        obtain ⟨d, hd⟩ : ∃ d, i - idx = d + 1 := ⟨i - idx - 1, by omega⟩
        have h4 : i - (idx + 1) = d := by omega
        simp only [h1, h2, h3, decide_true, decide_false, Bool.and_false, Bool.false_or, Bool.true_and, hd, h4]
        rw [testBit_getBits, testBit_getBits]; simp
    constructor
    · rw [Bool.or_assoc, key]
    · rw [Bool.or_assoc, key]

theorem popcount_length {ts : List Nat} (h : TargetsOK ts) {m : U64} (hm : ∀ i, m.getLsbD i = decide (i ∈ ts)) :
    popcount m = ts.length := by
  induction ts generalizing m with
  | nil =>
    have : m = 0 := by apply U64.ext; intro i _; rw [hm]; simp
    rw [this, popcount_zero]; rfl
  | cons q qs ih =>
    have hq : q < 64 := h.lt q (by simp)
    have hnd := List.nodup_cons.1 h.nodup
    rw [popcount_split m hq, hm, ih ⟨hnd.2, fun p hp => h.lt p (by simp [hp])⟩]
    · simp [add_comm]
    · intro i
      rw [getLsbD_setBit _ hq, hm]
      by_cases e : i = q
      · subst e; simp [hnd.1]
      · simp [e]

theorem targetsOK_maskToVector (m : U64) : TargetsOK (maskToVector m) := by
  obtain ⟨h1, h2⟩ := maskToVector_spec m
  refine ⟨h2.imp (fun h => Nat.ne_of_lt h), ?_⟩
  intro x hx
  rw [h1] at hx
  by_contra hge
  rw [getLsbD_high m (by omega)] at hx; cases hx

theorem length_maskToVector (m : U64) : (maskToVector m).length = popcount m := by
  rw [popcount_length (targetsOK_maskToVector m)]
  intro i
  rw [Bool.eq_iff_iff, decide_eq_true_eq, (maskToVector_spec m).1]

theorem compressed (p : PauliOp) :
    compressMasks p p.targetList 0 (0, 0) =
      (BitVec.ofNat 64 (getBits p.x p.targetList), BitVec.ofNat 64 (getBits p.z p.targetList)) := by
  have hlen : 0 + p.targetList.length ≤ 64 := by
    unfold PauliOp.targetList; rw [length_maskToVector]; have := popcount_le (p.x ||| p.z); omega
  apply Prod.ext
  · apply U64.ext; intro i hi
    rw [(compressMasks_bits p _ 0 0 0 hlen i).1, BitVec.getLsbD_ofNat]; simp [hi]
  · apply U64.ext; intro i hi
    rw [(compressMasks_bits p _ 0 0 0 hlen i).2, BitVec.getLsbD_ofNat]; simp [hi]

theorem mem_targetList {p : PauliOp} {i : Nat} : i ∈ p.targetList ↔ p.x.getLsbD i = true ∨ p.z.getLsbD i = true := by
  unfold PauliOp.targetList
  rw [(maskToVector_spec _).1, BitVec.getLsbD_or, Bool.or_eq_true]

theorem toNat_one_shl {k : Nat} (h : k < 64) : (1#64 <<< k).toNat = 2 ^ k := by
  rw [BitVec.toNat_shiftLeft, Nat.shiftLeft_eq]
  have : (1#64).toNat = 1 := rfl
  rw [this, Nat.one_mul, Nat.mod_eq_of_lt (Nat.pow_lt_pow_right (by omega) h)]

theorem shl1_ok {k : Nat} (h : k < 64) : shl1 k = .ok (1#64 <<< k) := by unfold shl1; rw [if_pos h]

/-- `bit_width` of the compressed masks is the number of qubits -/
theorem bitWidth_compressed (p : PauliOp) :
    bitWidth (BitVec.ofNat 64 (getBits p.x p.targetList) ||| BitVec.ofNat 64 (getBits p.z p.targetList)) =
      p.targetList.length := by
  have hlen : p.targetList.length ≤ 64 := by
    unfold PauliOp.targetList; rw [length_maskToVector]; exact popcount_le _
  set m : U64 := BitVec.ofNat 64 (getBits p.x p.targetList) ||| BitVec.ofNat 64 (getBits p.z p.targetList) with hm
  have hbit : ∀ i, m.getLsbD i = decide (i < p.targetList.length) := by
    intro i
    rw [hm, BitVec.getLsbD_or, BitVec.getLsbD_ofNat, BitVec.getLsbD_ofNat, testBit_getBits, testBit_getBits]
    by_cases hi : i < p.targetList.length
    · have hmem : p.targetList[i] ∈ p.targetList := List.getElem_mem hi
      rw [mem_targetList] at hmem
      have h64 : i < 64 := by omega
      rw [List.getElem?_eq_getElem hi]
      simp only [h64, hi, decide_true, Bool.true_and, Bool.or_eq_true]
      exact hmem
    · rw [List.getElem?_eq_none (by omega)]
      simp [hi]
  unfold bitWidth
  by_cases h0 : p.targetList.length = 0
  · have : m = 0 := by apply U64.ext; intro i _; rw [hbit]; simp [h0]
    rw [if_pos this, h0]
  · have hne : m ≠ 0 := by
      intro e
      have := hbit 0
      rw [e] at this
      have h2 : 0 < p.targetList.length := by omega
      simp [h2] at this
    have hnat : m.toNat ≠ 0 := fun e => hne (BitVec.eq_of_toNat_eq (by simpa using e))
    rw [if_neg hne]
    have h1 : m.toNat.log2 < p.targetList.length := by
      rw [Nat.log2_lt hnat, toNat_lt_two_pow_iff]
      intro i hi
      rw [hbit]; simp; exact hi
    have h2 : ¬ m.toNat.log2 < p.targetList.length - 1 := by
      rw [Nat.log2_lt hnat, toNat_lt_two_pow_iff]
      intro hh
      have := hh (p.targetList.length - 1) (le_refl _)
      rw [hbit, decide_eq_false_iff_not] at this
      omega
    omega

/-- `get_matrix()` is the matrix of the operator on its qubits in increasing order -/
theorem getMatrix_spec (p : PauliOp) (hp : popcount (p.x ||| p.z) < 64) :
    ∃ M, p.getMatrix = .ok M ∧ M.rows = 2 ^ p.targetList.length ∧ M.cols = 2 ^ p.targetList.length ∧
      ∀ cs ψ, applyMat p.targetList M.entry cs ψ =
        fun j => if CtrlOK cs j then p.coef * pauliAct p.x p.z ψ j else ψ j := by
  have hlen : p.targetList.length = popcount (p.x ||| p.z) := by
    unfold PauliOp.targetList; rw [length_maskToVector]
  obtain ⟨M, h1, h2, h3, h4⟩ := tripletMatrix (ts := p.targetList) (targetsOK_maskToVector _) (by omega)
    (x := p.x) (z := p.z) (fun i hi => mem_targetList.2 (.inl hi)) (fun i hi => mem_targetList.2 (.inr hi)) p.coef
  refine ⟨M, ?_, h2, h3, h4⟩
  unfold PauliOp.getMatrix PauliOp.matrixTriplets
  have hc := compressed p
  rw [show maskToVector (p.x ||| p.z) = p.targetList from rfl, hc]
  dsimp only
  rw [bitWidth_compressed, hlen, shl1_ok hp]
  simp only [ok_bind]
  rw [← hlen] at hp ⊢
  rw [toNat_one_shl hp]
  exact h1

/-- `get_matrix_ignoring_coef()` -/
theorem getMatrixIgnoringCoef_spec (p : PauliOp) (hp : popcount (p.x ||| p.z) < 64) :
    ∃ M, p.getMatrixIgnoringCoef = .ok M ∧ M.rows = 2 ^ p.targetList.length ∧ M.cols = 2 ^ p.targetList.length ∧
      ∀ cs ψ, applyMat p.targetList M.entry cs ψ =
        fun j => if CtrlOK cs j then pauliAct p.x p.z ψ j else ψ j := by
  obtain ⟨M, h1, h2, h3, h4⟩ := getMatrix_spec ⟨1, p.x, p.z⟩ hp
  refine ⟨M, ?_, h2, h3, ?_⟩
  · rw [← h1]
    unfold PauliOp.getMatrix PauliOp.getMatrixIgnoringCoef PauliOp.matrixTriplets
    have e : ∀ l : List Nat, ∀ i m, compressMasks p l i m = compressMasks ⟨1, p.x, p.z⟩ l i m := by
      intro l
      induction l with
      | nil => intro i m; rfl
      | cons a l ih => intro i m; obtain ⟨m1, m2⟩ := m; unfold compressMasks; rw [ih]
    simp only [e, mul_one]
    congr 1
    funext ts
    congr 1
    funext d
    congr 1
    simp
  · intro cs ψ
    have := h4 cs ψ
    simp only [one_mul] at this
    exact this

/-- `get_full_matrix_ignoring_coef(n)` for operators on the first `n` qubits -/
theorem getFullMatrixIgnoringCoef_spec (p : PauliOp) {n : Nat} (hn : n < 64) (hx : p.x.toNat < 2 ^ n)
    (hz : p.z.toNat < 2 ^ n) :
    ∃ M, p.getFullMatrixIgnoringCoef n = .ok M ∧ M.rows = 2 ^ n ∧ M.cols = 2 ^ n ∧
      ∀ ψ, applyMat (List.range n) M.entry [] ψ = pauliAct p.x p.z ψ := by
  have hlen : (List.range n).length = n := List.length_range
  have hT : TargetsOK (List.range n) := ⟨List.nodup_range, fun q hq => by have := List.mem_range.1 hq; omega⟩
  have hsup : ∀ a : U64, a.toNat < 2 ^ n → ∀ i, a.getLsbD i = true → i ∈ List.range n := by
    intro a ha i hi
    rw [List.mem_range]
    by_contra hge
    rw [(toNat_lt_two_pow_iff a n).1 ha i (by omega)] at hi; cases hi
  have hget : ∀ a : U64, a.toNat < 2 ^ n → BitVec.ofNat 64 (getBits a (List.range n)) = a := by
    intro a ha
    apply U64.ext; intro i hi
    rw [BitVec.getLsbD_ofNat, testBit_getBits]
    by_cases h : i < n
    · rw [List.getElem?_range h]; simp [hi]
    · rw [List.getElem?_eq_none (by simp; omega), (toNat_lt_two_pow_iff a n).1 ha i (by omega)]; simp
  obtain ⟨M, h1, h2, h3, h4⟩ := tripletMatrix hT (by rw [hlen]; omega) (hsup p.x hx) (hsup p.z hz) 1
  rw [hlen, hget p.x hx, hget p.z hz] at h1
  refine ⟨M, ?_, by rw [h2, hlen], by rw [h3, hlen], ?_⟩
  · unfold PauliOp.getFullMatrixIgnoringCoef PauliOp.fullTriplets
    simp only [shl1_ok hn, ok_bind]
    rw [← h1, toNat_one_shl hn]
    simp only [mul_one]
    show fillMatrix _ _ = _
    congr 1
    simp
  · intro ψ
    rw [h4]
    funext j
    rw [if_pos (by simp [CtrlOK]), one_mul]

end Verif.Proofs
