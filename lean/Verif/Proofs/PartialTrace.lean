import Verif.Proofs.DensityState

/-! # `get_partial_trace` -/

namespace Verif.Proofs
open Verif Verif.Spec Verif.Model
open scoped ComplexConjugate
attribute [-simp] BitVec.getLsbD_eq_getElem

theorem rank_not {t : U64} {i : Nat} (hi : i ≤ 64) : rank (~~~t) i + rank t i = i := by
  induction i with
  | zero => rfl
  | succ i ih =>
    have := ih (by omega)
    rw [rank_succ, rank_succ, BitVec.getLsbD_not]
    have h64 : i < 64 := by omega
    cases t.getLsbD i <;> simp [h64] <;> omega

/-- `insert_zero_at_mask_positions(x, ~mask)` spells `x` on the bits of the mask -/
theorem scatter_not {t : U64} {ts : List Nat} (h : MaskOf t ts) {b : U64} (hb : ∀ i, t.getLsbD i = true → b.getLsbD i = false) (x : Nat) :
    b ||| insertZero (BitVec.ofNat 64 x) (~~~t) = putBits b ts x := by
  apply U64.ext; intro i hi
  rw [BitVec.getLsbD_or, getLsbD_insertZero _ _ _ hi, BitVec.getLsbD_not]
  by_cases hm : i ∈ ts
  · obtain ⟨k, hk, rfl⟩ := List.getElem_of_mem hm
    rw [getLsbD_putBits_get b h.targetsOK.nodup h.lt _ hk]
    have ht : t.getLsbD ts[k] = true := by rw [h.bits]; simp
    rw [hb _ ht, ht]
    have hr := rank_not (t := t) (i := ts[k]) (by omega)
    rw [rank_sorted h hk] at hr
    have e : ts[k] - rank (~~~t) ts[k] = k := by omega
    rw [e, BitVec.getLsbD_ofNat]
    have : k < 64 := by omega
    simp [this]
  · rw [getLsbD_putBits_notMem b h.lt _ hm]
    have ht : t.getLsbD i = false := by rw [h.bits]; simpa using hm
    rw [ht]
    simp [hi]

/-! ## the kept and the traced qubits -/

theorem sorted_filter (n : Nat) (p : Nat → Bool) : ((List.range n).filter p).Pairwise (· < ·) :=
  List.Pairwise.filter _ (List.pairwise_lt_range)

theorem mem_kept {n : Nat} {qs : List Nat} {q : Nat} : q ∈ keptQubits n qs ↔ q < n ∧ q ∉ qs := by
  unfold keptQubits
  rw [List.mem_filter, List.mem_range]
  simp

theorem kept_ok {n : Nat} (hn : n < 64) (qs : List Nat) : TargetsOK (keptQubits n qs) :=
  ⟨(sorted_filter n _).imp (fun h => Nat.ne_of_lt h), fun q hq => by have := (mem_kept.1 hq).1; omega⟩

theorem length_kept {n : Nat} {qs : List Nat} (hnd : qs.Nodup) (hq : ∀ q ∈ qs, q < n) : (keptQubits n qs).length = n - qs.length := by
  have h1 : (keptQubits n qs).toFinset = Finset.range n \ qs.toFinset := by
    ext i
    simp [mem_kept]
  have h2 : (keptQubits n qs).Nodup := (sorted_filter n _).imp (fun h => Nat.ne_of_lt h)
  rw [← List.toFinset_card_of_nodup h2, h1, Finset.card_sdiff_of_subset, Finset.card_range, List.toFinset_card_of_nodup hnd]
  intro i hi
  rw [List.mem_toFinset] at hi
  simpa using hq i hi

theorem length_le_of_nodup {n : Nat} {qs : List Nat} (hnd : qs.Nodup) (hq : ∀ q ∈ qs, q < n) : qs.length ≤ n := by
  rw [← List.toFinset_card_of_nodup hnd, ← Finset.card_range n]
  apply Finset.card_le_card
  intro i hi
  rw [List.mem_toFinset] at hi
  simpa using hq i hi

section
variable {n : Nat} {qs : List Nat}

theorem toNat_putBits_zero (hn : n < 64) {ts : List Nat} (h64 : ∀ q ∈ ts, q < 64) (ht : ∀ q ∈ ts, q < n) {j : U64} (hj : j.toNat < 2 ^ n)
    (x : Nat) : (putBits j ts x).toNat < 2 ^ n := by
  have := (putBits_inState (B := 1) (n := n) h64 ht j x).2 (by rwa [Nat.one_mul])
  rwa [Nat.one_mul] at this

theorem jointIndex_lt (hn : n < 64) (hq : ∀ q ∈ qs, q < n) (i x : Nat) : (jointIndex n qs i x).toNat < 2 ^ n := by
  unfold jointIndex
  refine toNat_putBits_zero hn (fun q h => by have := hq q h; omega) hq ?_ x
  exact toNat_putBits_zero hn (kept_ok hn qs).lt (fun q h => (mem_kept.1 h).1) (by simp) i

theorem getBits_joint_traced (hn : n < 64) (hnd : qs.Nodup) (hq : ∀ q ∈ qs, q < n) {i x : Nat} (hx : x < 2 ^ qs.length) :
    getBits (jointIndex n qs i x) qs = x :=
  getBits_putBits _ ⟨hnd, fun q h => by have := hq q h; omega⟩ hx

theorem getBits_joint_kept (hn : n < 64) (hq : ∀ q ∈ qs, q < n) {i x : Nat} (hi : i < 2 ^ (keptQubits n qs).length) :
    getBits (jointIndex n qs i x) (keptQubits n qs) = i := by
  refine Eq.trans ?_ (getBits_putBits 0 (kept_ok hn qs) hi)
  apply getBits_congr
  intro q h
  exact getLsbD_putBits_notMem _ (fun q h => by have := hq q h; omega) x (mem_kept.1 h).2

theorem jointIndex_getBits (hn : n < 64) (hnd : qs.Nodup) (hq : ∀ q ∈ qs, q < n) {j : U64} (hj : j.toNat < 2 ^ n) :
    jointIndex n qs (getBits j (keptQubits n qs)) (getBits j qs) = j := by
  have hqs : TargetsOK qs := ⟨hnd, fun q h => by have := hq q h; omega⟩
  apply U64.ext; intro i _
  unfold jointIndex
  by_cases h1 : i ∈ qs
  · obtain ⟨k, hk, rfl⟩ := List.getElem_of_mem h1
    rw [getLsbD_putBits_get _ hqs.nodup hqs.lt _ hk, testBit_getBits, List.getElem?_eq_getElem hk]
  · rw [getLsbD_putBits_notMem _ hqs.lt _ h1]
    by_cases h2 : i ∈ keptQubits n qs
    · have hk' := kept_ok hn qs
      obtain ⟨k, hk, rfl⟩ := List.getElem_of_mem h2
      rw [getLsbD_putBits_get _ hk'.nodup hk'.lt _ hk, testBit_getBits, List.getElem?_eq_getElem hk]
    · rw [getLsbD_putBits_notMem _ (kept_ok hn qs).lt _ h2]
      have hin : n ≤ i := by
        by_contra hc
        exact h2 (mem_kept.2 ⟨by omega, h1⟩)
      rw [(toNat_lt_two_pow_iff j n).1 hj i hin]
      simp

/-- the partial trace has the same trace -/
theorem trace_partialTraceOf (hn : n < 64) (hnd : qs.Nodup) (hq : ∀ q ∈ qs, q < n) (ρ : U64 × U64 → ℂ) :
    traceOf (2 ^ (n - qs.length)) (partialTraceOf n qs ρ) = traceOf (2 ^ n) ρ := by
  have hB : 2 ^ n ≤ 2 ^ 64 := Nat.pow_le_pow_right (by norm_num) hn.le
  have hl := length_kept hnd hq
  have hr : 2 ^ (n - qs.length) ≤ 2 ^ 63 := Nat.pow_le_pow_right (by norm_num) (by omega)
  rw [traceOf_indices hn]
  unfold traceOf partialTraceOf
  rw [← Finset.sum_product']
  refine Finset.sum_nbij' (fun p => jointIndex n qs p.1 p.2) (fun j => (getBits j (keptQubits n qs), getBits j qs)) ?_ ?_ ?_ ?_ ?_
  · intro p _
    exact (mem_indices hB).2 (jointIndex_lt hn hq _ _)
  · intro j _
    rw [Finset.mem_product, Finset.mem_range, Finset.mem_range]
    refine ⟨?_, getBits_lt _ _⟩
    have := getBits_lt j (keptQubits n qs)
    rwa [hl] at this
  · rintro ⟨i, x⟩ hp
    rw [Finset.mem_product, Finset.mem_range, Finset.mem_range] at hp
    dsimp only at hp ⊢
    rw [getBits_joint_kept hn hq (by rw [hl]; exact hp.1), getBits_joint_traced hn hnd hq hp.2]
  · intro j hj
    exact jointIndex_getBits hn hnd hq ((mem_indices hB).1 hj)
  · rintro ⟨i, x⟩ hp
    rw [Finset.mem_product, Finset.mem_range, Finset.mem_range] at hp
    dsimp only at hp ⊢
    rw [Verif.toNat_ofNat_lt (lt_of_lt_of_le hp.1 (by omega))]

theorem partialTraceOf_hermitian (hn : n < 64) (hq : ∀ q ∈ qs, q < n) {ρ : U64 × U64 → ℂ} (h : HermitianOn (2 ^ n) ρ) (dim : Nat) :
    HermitianOn dim (partialTraceOf n qs ρ) := by
  intro i j _ _
  unfold partialTraceOf
  rw [map_sum]
  exact Finset.sum_congr rfl fun x _ => h _ _ (jointIndex_lt hn hq _ _) (jointIndex_lt hn hq _ _)

/-! ## the code -/

/-- the traced qubits in ascending order -/
def tracedSorted (n : Nat) (qs : List Nat) : List Nat := (List.range n).filter (· ∈ qs)

theorem mem_tracedSorted (hq : ∀ q ∈ qs, q < n) (q : Nat) : q ∈ qs ↔ q ∈ tracedSorted n qs := by
  unfold tracedSorted
  rw [List.mem_filter, List.mem_range]
  simp only [decide_eq_true_eq]
  exact ⟨fun h => ⟨hq q h, h⟩, fun h => h.2⟩

theorem maskOf_traced (hn : n < 64) (hq : ∀ q ∈ qs, q < n) {mask : U64} (hm : vectorToMask qs = .ok mask) : MaskOf mask (tracedSorted n qs) where
  sorted := sorted_filter n _
  lt := fun q h => by have := hq q ((mem_tracedSorted hq q).2 h); omega
  bits := fun i => by rw [getLsbD_vectorToMask hm, decide_eq_decide]; exact mem_tracedSorted hq i

/-- the mask of the kept qubits -/
theorem maskOf_kept (hn : n < 64) {mask : U64} (hm : vectorToMask qs = .ok mask) :
    MaskOf (~~~mask &&& ((1#64 <<< n) - 1)) (keptQubits n qs) where
  sorted := sorted_filter n _
  lt := (kept_ok hn qs).lt
  bits := fun i => by
    rw [getLsbD_outer hn, getLsbD_vectorToMask hm]
    by_cases h1 : i < n <;> by_cases h2 : i ∈ qs <;> simp [h1, h2, mem_kept]

theorem insertZero_kept (hn : n < 64) (hq : ∀ q ∈ qs, q < n) {mask : U64} (hm : vectorToMask qs = .ok mask) {i : Nat}
    (hi : i < 2 ^ (keptQubits n qs).length) : insertZero (BitVec.ofNat 64 i) mask = putBits 0 (keptQubits n qs) i := by
  have e : ~~~(~~~mask &&& ((1#64 <<< n) - 1)) &&& ((1#64 <<< n) - 1) = mask := by
    apply U64.ext; intro k _
    rw [getLsbD_outer hn, getLsbD_outer hn, getLsbD_vectorToMask hm]
    by_cases h1 : k < n
    · simp [h1]
    · have : k ∉ qs := fun h => h1 (hq k h)
      simp [h1, this]
  have := scatter_eq (maskOf_kept hn hm) hn (fun q h => (mem_kept.1 h).1) (b := 0) (by simp) hi
  rw [e] at this
  rw [← this]
  exact BitVec.or_zero.symm

theorem ptIndex (hn : n < 64) (hnd : qs.Nodup) (hq : ∀ q ∈ qs, q < n) {mask : U64} (hm : vectorToMask qs = .ok mask) {i : Nat}
    (hi : i < 2 ^ (keptQubits n qs).length) (x : Nat) :
    insertZero (BitVec.ofNat 64 i) mask ||| insertZero (BitVec.ofNat 64 x) (~~~mask)
      = jointIndex n qs i (reorder (tracedSorted n qs) qs x) := by
  have hqs : TargetsOK qs := ⟨hnd, fun q h => by have := hq q h; omega⟩
  have ht := maskOf_traced hn hq hm
  rw [scatter_not ht, insertZero_kept hn hq hm hi]
  · unfold jointIndex
    exact (putBits_reorder ht.targetsOK hqs (fun q => (mem_tracedSorted hq q).symm) _ _).symm
  · intro k hk
    rw [getLsbD_vectorToMask hm, decide_eq_true_eq] at hk
    rw [insertZero_kept hn hq hm hi, getLsbD_putBits_notMem _ (kept_ok hn qs).lt]
    · simp
    · intro h; exact (mem_kept.1 h).2 hk

theorem length_traced (hnd : qs.Nodup) (hq : ∀ q ∈ qs, q < n) : (tracedSorted n qs).length = qs.length :=
  ((List.perm_ext_iff_of_nodup ((sorted_filter n _).imp (fun h => Nat.ne_of_lt h)) hnd).2 fun q => (mem_tracedSorted hq q).symm).length_eq

theorem ptSum_eq {d : DM} (hn : d.n < 64) (hnd : qs.Nodup) (hq : ∀ q ∈ qs, q < d.n) {mask : U64} (hm : vectorToMask qs = .ok mask)
    {i j : Nat} (hi : i < 2 ^ (d.n - qs.length)) (hj : j < 2 ^ (d.n - qs.length)) :
    d.ptSum mask qs.length (BitVec.ofNat 64 i) (BitVec.ofNat 64 j) =
      .ok (partialTraceOf d.n qs d.raw (BitVec.ofNat 64 i, BitVec.ofNat 64 j)) := by
  have hqs : TargetsOK qs := ⟨hnd, fun q h => by have := hq q h; omega⟩
  have hl := length_kept hnd hq
  have hp : (2 : Nat) ^ (d.n - qs.length) ≤ 2 ^ 63 := Nat.pow_le_pow_right (by norm_num) (by omega)
  unfold DM.ptSum
  rw [reduceSum_ok (g := fun x => d.raw (jointIndex d.n qs i (reorder (tracedSorted d.n qs) qs x),
    jointIndex d.n qs j (reorder (tracedSorted d.n qs) qs x)))]
  · congr 1
    unfold partialTraceOf
    dsimp only
    rw [Verif.toNat_ofNat_lt (by omega), Verif.toNat_ofNat_lt (by omega)]
    have ht := (maskOf_traced hn hq hm).targetsOK
    have hlt := length_traced hnd hq
    refine Finset.sum_nbij' (reorder (tracedSorted d.n qs) qs) (reorder qs (tracedSorted d.n qs)) ?_ ?_ ?_ ?_ ?_
    · intro x _; rw [Finset.mem_range]; exact getBits_lt _ _
    · intro x _; rw [Finset.mem_range, ← hlt]; exact getBits_lt _ _
    · intro x hx
      rw [Finset.mem_range, ← hlt] at hx
      exact reorder_reorder ht hqs (fun q => (mem_tracedSorted hq q).symm) hx
    · intro x hx
      exact reorder_reorder hqs ht (mem_tracedSorted hq) (Finset.mem_range.1 hx)
    · intro x _; rfl
  · intro x _
    rw [ptIndex hn hnd hq hm (by rw [hl]; exact hi), ptIndex hn hnd hq hm (by rw [hl]; exact hj)]
    unfold readM
    rw [if_pos ⟨jointIndex_lt hn hq _ _, jointIndex_lt hn hq _ _⟩]

theorem rank_row {g r : Nat} (hr : r < 64) (hg : g < 2 ^ 64) :
    (BitVec.ofNat 64 g >>> r : U64) = BitVec.ofNat 64 (g / 2 ^ r) ∧
    (BitVec.ofNat 64 g &&& BitVec.ofNat 64 (2 ^ r - 1) : U64) = BitVec.ofNat 64 (g % 2 ^ r) := by
  have hp : (2 : Nat) ^ r < 2 ^ 64 := Nat.pow_lt_pow_right (by norm_num) hr
  constructor
  · apply BitVec.eq_of_toNat_eq
    rw [BitVec.toNat_ushiftRight, Verif.toNat_ofNat_lt hg, Nat.shiftRight_eq_div_pow,
      Verif.toNat_ofNat_lt (lt_of_le_of_lt (Nat.div_le_self _ _) hg)]
  · apply BitVec.eq_of_toNat_eq
    rw [BitVec.toNat_and, Verif.toNat_ofNat_lt hg, Verif.toNat_ofNat_lt (by omega), Nat.and_two_pow_sub_one_eq_mod,
      Verif.toNat_ofNat_lt (lt_of_le_of_lt (Nat.mod_le _ _) hg)]

theorem leagueSize_small {N : Nat} (h : N < 2 ^ 31) : leagueSize N = .ok N := by
  unfold leagueSize
  rw [Nat.mod_eq_of_lt (by omega), if_pos h]

theorem leagueSize_square {r : Nat} (h : 16 ≤ r) : leagueSize (2 ^ r * 2 ^ r) = .ok 0 := by
  have h0 : 2 ^ r * 2 ^ r % 2 ^ 32 = 0 := by
    rw [← pow_add]
    exact Nat.mod_eq_zero_of_dvd (Nat.pow_dvd_pow 2 (by omega))
  unfold leagueSize
  rw [h0, if_pos (by norm_num)]

/-- the kernel that stores the sums -/
theorem storeSums_run {r : Nat} (hr : 2 ^ r * 2 ^ r < 2 ^ 31) (f : U64 × U64 → ℂ) (sums : List ℂ)
    (hs : sums = (List.range (2 ^ r * 2 ^ r)).map fun g => f (BitVec.ofNat 64 (g / 2 ^ r), BitVec.ofNat 64 (g % 2 ^ r))) (junk : U64 × U64 → ℂ) :
    Runs (ι := Fin sums.length) (InMat (2 ^ r)) (fun g => Prog.store (BitVec.ofNat 64 g.val >>> r, BitVec.ofNat 64 g.val &&& BitVec.ofNat 64 (2 ^ r - 1)) sums[g])
      junk (fun p => if p.1.toNat < 2 ^ r ∧ p.2.toNat < 2 ^ r then f p else junk p) := by
  have hlen : sums.length = 2 ^ r * 2 ^ r := by rw [hs]; simp
  have hpos : 0 < 2 ^ r := Nat.two_pow_pos r
  have hr' : r < 64 := by
    by_contra hc
    have h1 : (2 : Nat) ^ 64 ≤ 2 ^ r := Nat.pow_le_pow_right (by norm_num) (by omega)
    have : 2 ^ r * 1 ≤ 2 ^ r * 2 ^ r := Nat.mul_le_mul_left _ hpos
    omega
  have hle : 2 ^ r ≤ 2 ^ r * 2 ^ r := Nat.le_mul_of_pos_left _ hpos
  have hg : ∀ g : Fin sums.length, g.val < 2 ^ r * 2 ^ r := fun g => by have := g.isLt; omega
  have hb : ∀ g : Fin sums.length, g.val / 2 ^ r < 2 ^ r ∧ g.val % 2 ^ r < 2 ^ r := fun g =>
    ⟨(Nat.div_lt_iff_lt_mul hpos).2 (hg g), Nat.mod_lt _ hpos⟩
  have hv : ∀ k, k < 2 ^ r → (BitVec.ofNat 64 k).toNat = k := fun k hk => Verif.toNat_ofNat_lt (by omega)
  have hcell : ∀ g : Fin sums.length, ((BitVec.ofNat 64 g.val >>> r, BitVec.ofNat 64 g.val &&& BitVec.ofNat 64 (2 ^ r - 1)) : U64 × U64)
      = (BitVec.ofNat 64 (g.val / 2 ^ r), BitVec.ofNat 64 (g.val % 2 ^ r)) := fun g => by
    rw [(rank_row hr' (by have := hg g; omega)).1, (rank_row hr' (by have := hg g; omega)).2]
  have hin : ∀ g : Fin sums.length, InMat (2 ^ r) (BitVec.ofNat 64 (g.val / 2 ^ r), BitVec.ofNat 64 (g.val % 2 ^ r)) := fun g =>
    ⟨by show (BitVec.ofNat 64 _).toNat < _; rw [hv _ (hb g).1]; exact (hb g).1,
     by show (BitVec.ofNat 64 _).toNat < _; rw [hv _ (hb g).2]; exact (hb g).2⟩
  apply runs_of_disjoint _ _ _ _ (fun g p => p = (BitVec.ofNat 64 (g.val / 2 ^ r), BitVec.ofNat 64 (g.val % 2 ^ r)))
  · rintro g g' p rfl h
    have h1 := congrArg BitVec.toNat (Prod.ext_iff.1 h).1
    have h2 := congrArg BitVec.toNat (Prod.ext_iff.1 h).2
    dsimp only at h1 h2
    rw [hv _ (hb g).1, hv _ (hb g').1] at h1
    rw [hv _ (hb g).2, hv _ (hb g').2] at h2
    exact Fin.ext (div_mod_inj h1 h2)
  · rintro g p rfl; exact hin g
  · intro g
    rw [hcell]
    exact ⟨rfl, trivial⟩
  · rintro g p rfl
    rw [hcell]
    show (if _ then _ else _) = Function.update junk _ sums[g] _
    rw [if_pos ⟨(hin g).1, (hin g).2⟩, Function.update_self]
    subst hs
    simp
  · intro p hp
    refine if_neg fun ⟨h1, h2⟩ => ?_
    have hlt : p.1.toNat * 2 ^ r + p.2.toNat < 2 ^ r * 2 ^ r := by
      have : (p.1.toNat + 1) * 2 ^ r ≤ 2 ^ r * 2 ^ r := Nat.mul_le_mul_right _ h1
      rw [Nat.add_mul, Nat.one_mul] at this
      omega
    refine hp ⟨p.1.toNat * 2 ^ r + p.2.toNat, by rwa [hlen]⟩ ?_
    have e1 : (p.1.toNat * 2 ^ r + p.2.toNat) / 2 ^ r = p.1.toNat := by
      rw [Nat.add_comm, Nat.add_mul_div_right _ _ hpos, Nat.div_eq_of_lt h2, Nat.zero_add]
    have e2 : (p.1.toNat * 2 ^ r + p.2.toNat) % 2 ^ r = p.2.toNat := by
      rw [Nat.add_comm, Nat.add_mul_mod_self_right, Nat.mod_eq_of_lt h2]
    dsimp only
    rw [e1, e2]
    exact Prod.ext (by simp) (by simp)

/-- `get_partial_trace` of a non-empty list of distinct qubits of the register -/
theorem partialTrace_ok {d : DM} (hn : d.n < 32) (hne : qs ≠ []) (hnd : qs.Nodup) (hq : ∀ q ∈ qs, q < d.n) (h16 : d.n - qs.length < 16) :
    ∃ r, d.partialTrace qs = .ok r ∧ r.n = d.n - qs.length ∧ r.hermitian = d.hermitian ∧
      ∀ junk, MRuns (2 ^ r.n) r.launches junk
        (fun p => if p.1.toNat < 2 ^ r.n ∧ p.2.toNat < 2 ^ r.n then partialTraceOf d.n qs d.raw p else junk p) := by
  have hle := length_le_of_nodup hnd hq
  obtain ⟨mask, hm⟩ := (vectorToMask_ok_iff qs).2 ⟨hnd, fun q h => by have := hq q h; omega⟩
  have hpc : popcount mask = qs.length := by
    rw [popcount_maskOf (maskOf_traced (by omega) hq hm), length_traced hnd hq]
  have hdiv : 2 ^ d.n / 2 ^ qs.length = 2 ^ (d.n - qs.length) := Nat.pow_div hle (by norm_num)
  have hsm : 2 ^ (d.n - qs.length) ≤ 2 ^ 15 := Nat.pow_le_pow_right (by norm_num) (by omega)
  have hsq : 2 ^ (d.n - qs.length) * 2 ^ (d.n - qs.length) < 2 ^ 31 :=
    lt_of_le_of_lt (Nat.mul_le_mul hsm hsm) (by norm_num)
  have hpos : 0 < 2 ^ (d.n - qs.length) := Nat.two_pow_pos _
  have hsums : (List.range (2 ^ (d.n - qs.length) * 2 ^ (d.n - qs.length))).mapM (fun rank => d.ptSum mask qs.length
      (BitVec.ofNat 64 rank >>> (d.n - qs.length)) (BitVec.ofNat 64 rank &&& BitVec.ofNat 64 (2 ^ (d.n - qs.length) - 1)))
      = .ok ((List.range (2 ^ (d.n - qs.length) * 2 ^ (d.n - qs.length))).map fun g =>
        partialTraceOf d.n qs d.raw (BitVec.ofNat 64 (g / 2 ^ (d.n - qs.length)), BitVec.ofNat 64 (g % 2 ^ (d.n - qs.length)))) := by
    apply mapM_ok
    intro g hg
    rw [List.mem_range] at hg
    rw [(rank_row (r := d.n - qs.length) (by omega) (by omega)).1, (rank_row (r := d.n - qs.length) (by omega) (by omega)).2]
    exact ptSum_eq (by omega) hnd hq hm ((Nat.div_lt_iff_lt_mul hpos).2 hg) (Nat.mod_lt _ hpos)
  generalize hS : ((List.range (2 ^ (d.n - qs.length) * 2 ^ (d.n - qs.length))).map fun g =>
        partialTraceOf d.n qs d.raw (BitVec.ofNat 64 (g / 2 ^ (d.n - qs.length)), BitVec.ofNat 64 (g % 2 ^ (d.n - qs.length)))) = sums at hsums
  refine ⟨⟨d.n - qs.length, d.hermitian, [⟨sums.length, fun g => Prog.store (BitVec.ofNat 64 g.val >>> (d.n - qs.length),
    BitVec.ofNat 64 g.val &&& BitVec.ofNat 64 (2 ^ (d.n - qs.length) - 1)) sums[g]⟩]⟩, ?_, rfl, rfl, fun junk => ⟨_, ?_, rfl⟩⟩
  · unfold DM.partialTrace
    rw [if_neg hne, if_neg (by push Not; exact hq), hm, ok_bind, if_neg (by simpa using hpc)]
    dsimp only
    rw [hdiv, leagueSize_small hsq, ok_bind, hsums, ok_bind]
    rfl
  · exact storeSums_run hsq (partialTraceOf d.n qs d.raw) _ hS.symm junk

/-- with 16 or more remaining qubits the league size is 0 and nothing is computed -/
theorem partialTrace_large {d : DM} (hn : d.n < 64) (hne : qs ≠ []) (hnd : qs.Nodup) (hq : ∀ q ∈ qs, q < d.n) (h16 : 16 ≤ d.n - qs.length) :
    ∃ r, d.partialTrace qs = .ok r ∧ r.n = d.n - qs.length ∧ r.hermitian = d.hermitian ∧ ∀ junk, MRuns (2 ^ r.n) r.launches junk junk := by
  have hle := length_le_of_nodup hnd hq
  obtain ⟨mask, hm⟩ := (vectorToMask_ok_iff qs).2 ⟨hnd, fun q h => by have := hq q h; omega⟩
  have hpc : popcount mask = qs.length := by
    rw [popcount_maskOf (maskOf_traced (by omega) hq hm), length_traced hnd hq]
  have hdiv : 2 ^ d.n / 2 ^ qs.length = 2 ^ (d.n - qs.length) := Nat.pow_div hle (by norm_num)
  refine ⟨⟨d.n - qs.length, d.hermitian, [⟨([] : List ℂ).length, fun g => Prog.store (BitVec.ofNat 64 g.val >>> (d.n - qs.length),
    BitVec.ofNat 64 g.val &&& BitVec.ofNat 64 (2 ^ (d.n - qs.length) - 1)) ([] : List ℂ)[g]⟩]⟩, ?_, rfl, rfl, fun junk => ⟨_, ?_, rfl⟩⟩
  · unfold DM.partialTrace
    rw [if_neg hne, if_neg (by push Not; exact hq), hm, ok_bind, if_neg (by simpa using hpc)]
    dsimp only
    rw [hdiv, leagueSize_square h16, ok_bind]
    rfl
  · exact runs_of_disjoint _ _ _ _ (fun _ _ => False) (fun _ _ _ h => h.elim) (fun _ _ h => h.elim) (fun g => absurd g.isLt (by simp))
      (fun _ _ h => h.elim) (fun _ _ => rfl)

end

end Verif.Proofs
