import Verif.Spec.Facts
import Mathlib.Data.Complex.BigOperators

/-! # Algebra of the specified operators: composition, identity, adjoint, norm -/

namespace Verif.Spec
open Verif
attribute [-simp] BitVec.getLsbD_eq_getElem

/-! ## reading and writing qubit lists -/

theorem getBits_lt (j : U64) (ts : List Nat) : getBits j ts < 2 ^ ts.length := by
  induction ts with
  | nil => simp [getBits]
  | cons q qs ih =>
    simp only [getBits, List.length_cons, pow_succ]
    have := Bool.toNat_le (j.getLsbD q)
    omega

theorem testBit_getBits (j : U64) (ts : List Nat) (k : Nat) :
    (getBits j ts).testBit k = match ts[k]? with | some q => j.getLsbD q | none => false := by
  induction ts generalizing k with
  | nil => simp [getBits]
  | cons q qs ih =>
    cases k with
    | zero =>
      simp only [getBits, List.getElem?_cons_zero]
      rw [Nat.testBit_zero]
      cases j.getLsbD q <;> simp
    | succ k =>
      simp only [getBits, List.getElem?_cons_succ]
      rw [← ih k, Nat.testBit_succ]
      congr 1
      have := Bool.toNat_le (j.getLsbD q)
      omega

theorem getLsbD_putBits_notMem (j : U64) {ts : List Nat} (h64 : ∀ q ∈ ts, q < 64) (x : Nat) {i : Nat}
    (hi : i ∉ ts) : (putBits j ts x).getLsbD i = j.getLsbD i := by
  induction ts generalizing j x with
  | nil => rfl
  | cons q qs ih =>
    simp only [putBits]
    rw [ih _ (fun p hp => h64 p (by simp [hp])) _ (by simp at hi; exact hi.2),
      getLsbD_setBit _ (h64 q (by simp)), if_neg (by simp at hi; exact hi.1)]

theorem getLsbD_putBits_get (j : U64) {ts : List Nat} (hnd : ts.Nodup) (h64 : ∀ q ∈ ts, q < 64) (x : Nat)
    {k : Nat} (hk : k < ts.length) : (putBits j ts x).getLsbD ts[k] = x.testBit k := by
  induction ts generalizing j x k with
  | nil => simp at hk
  | cons q qs ih =>
    obtain ⟨h1, h2⟩ := List.nodup_cons.1 hnd
    have h64' : ∀ p ∈ qs, p < 64 := fun p hp => h64 p (by simp [hp])
    cases k with
    | zero =>
      simp only [putBits, List.getElem_cons_zero]
      rw [getLsbD_putBits_notMem _ h64' _ h1, getLsbD_setBit _ (h64 q (by simp)), if_pos rfl]
    | succ k =>
      simp only [putBits, List.getElem_cons_succ]
      rw [ih _ h2 h64' _ (by simpa using hk), Nat.testBit_succ]

/-- well-formed target list -/
structure TargetsOK (ts : List Nat) : Prop where
  nodup : ts.Nodup
  lt : ∀ q ∈ ts, q < 64

theorem getBits_putBits (j : U64) {ts : List Nat} (h : TargetsOK ts) {x : Nat} (hx : x < 2 ^ ts.length) :
    getBits (putBits j ts x) ts = x := by
  apply Nat.eq_of_testBit_eq
  intro k
  rw [testBit_getBits]
  by_cases hk : k < ts.length
  · rw [List.getElem?_eq_getElem hk]
    simp only
    exact getLsbD_putBits_get j h.nodup h.lt x hk
  · rw [List.getElem?_eq_none (by omega)]
    simp only
    rw [Nat.testBit_lt_two_pow]
    exact lt_of_lt_of_le hx (Nat.pow_le_pow_right (by omega) (by omega))

theorem putBits_ext {j j' : U64} {ts : List Nat} (h : TargetsOK ts) (x : Nat)
    (hj : ∀ i, i ∉ ts → j.getLsbD i = j'.getLsbD i) : putBits j ts x = putBits j' ts x := by
  apply U64.ext; intro i _
  by_cases hi : i ∈ ts
  · obtain ⟨k, hk, rfl⟩ := List.getElem_of_mem hi
    rw [getLsbD_putBits_get j h.nodup h.lt x hk, getLsbD_putBits_get j' h.nodup h.lt x hk]
  · rw [getLsbD_putBits_notMem j h.lt x hi, getLsbD_putBits_notMem j' h.lt x hi, hj i hi]

theorem putBits_putBits (j : U64) {ts : List Nat} (h : TargetsOK ts) (x y : Nat) :
    putBits (putBits j ts x) ts y = putBits j ts y :=
  putBits_ext h y fun _ hi => getLsbD_putBits_notMem j h.lt x hi

theorem putBits_getBits (j : U64) {ts : List Nat} (h : TargetsOK ts) : putBits j ts (getBits j ts) = j := by
  apply U64.ext; intro i _
  by_cases hi : i ∈ ts
  · obtain ⟨k, hk, rfl⟩ := List.getElem_of_mem hi
    rw [getLsbD_putBits_get j h.nodup h.lt _ hk, testBit_getBits, List.getElem?_eq_getElem hk]
  · rw [getLsbD_putBits_notMem j h.lt _ hi]

/-- controls and targets are different qubits -/
def CtrlDisj (cs : List (Nat × Bool)) (ts : List Nat) : Prop := ∀ p ∈ cs, p.1 ∉ ts

theorem ctrlOK_putBits {cs : List (Nat × Bool)} {ts : List Nat} (h : TargetsOK ts) (hd : CtrlDisj cs ts)
    (j : U64) (x : Nat) : CtrlOK cs (putBits j ts x) ↔ CtrlOK cs j := by
  unfold CtrlOK
  constructor <;> intro hh p hp
  · rw [← hh p hp, getLsbD_putBits_notMem j h.lt x (hd p hp)]
  · rw [getLsbD_putBits_notMem j h.lt x (hd p hp), hh p hp]

/-! ## composition -/

/-- matrix product -/
def matMul {R : Type} [AddCommMonoid R] [Mul R] (k : Nat) (U V : Nat → Nat → R) : Nat → Nat → R :=
  fun r s => ∑ x ∈ Finset.range (2 ^ k), U r x * V x s

/-- identity matrix -/
def matOne {R : Type} [Zero R] [One R] : Nat → Nat → R := fun r s => if r = s then 1 else 0

/-- conjugate transpose -/
def matDag (U : Nat → Nat → ℂ) : Nat → Nat → ℂ := fun r s => (starRingEnd ℂ) (U s r)

section
variable {R : Type} {ts : List Nat} {cs : List (Nat × Bool)}

theorem applyMat_congr [AddCommMonoid R] [Mul R] {U V : Nat → Nat → R}
    (h : ∀ r s, r < 2 ^ ts.length → s < 2 ^ ts.length → U r s = V r s) :
    applyMat ts U cs = applyMat ts V cs := by
  funext ψ j
  unfold applyMat
  split
  · apply Finset.sum_congr rfl
    intro x hx
    rw [h _ _ (getBits_lt j ts) (Finset.mem_range.1 hx)]
  · rfl

theorem applyMat_comp [CommSemiring R] (h : TargetsOK ts) (hd : CtrlDisj cs ts) (U V : Nat → Nat → R)
    (ψ : U64 → R) : applyMat ts U cs (applyMat ts V cs ψ) = applyMat ts (matMul ts.length U V) cs ψ := by
  funext j
  by_cases hc : CtrlOK cs j
  · rw [applyMat, if_pos hc, applyMat, if_pos hc]
    have : ∀ x ∈ Finset.range (2 ^ ts.length), U (getBits j ts) x * applyMat ts V cs ψ (putBits j ts x) =
        ∑ y ∈ Finset.range (2 ^ ts.length), U (getBits j ts) x * V x y * ψ (putBits j ts y) := by
      intro x hx
      rw [applyMat, if_pos ((ctrlOK_putBits h hd j x).2 hc), Finset.mul_sum]
      apply Finset.sum_congr rfl
      intro y _
      rw [getBits_putBits j h (Finset.mem_range.1 hx), putBits_putBits j h, mul_assoc]
    rw [Finset.sum_congr rfl this, Finset.sum_comm]
    apply Finset.sum_congr rfl
    intro y _
    rw [matMul, Finset.sum_mul]
  · rw [applyMat, if_neg hc, applyMat, if_neg hc, applyMat, if_neg hc]

theorem applyMat_one_id [CommSemiring R] (h : TargetsOK ts) (ψ : U64 → R) :
    applyMat ts matOne cs ψ = ψ := by
  funext j
  unfold applyMat matOne
  split
  · simp only [ite_mul, one_mul, zero_mul]
    rw [Finset.sum_ite_eq, if_pos (Finset.mem_range.2 (getBits_lt j ts)), putBits_getBits j h]
  · rfl

/-- if the matrices are inverse to each other so are the operators -/
theorem applyMat_inverse [CommSemiring R] (h : TargetsOK ts) (hd : CtrlDisj cs ts) {U V : Nat → Nat → R}
    (hUV : ∀ r s, r < 2 ^ ts.length → s < 2 ^ ts.length → matMul ts.length U V r s = matOne r s)
    (ψ : U64 → R) : applyMat ts U cs (applyMat ts V cs ψ) = ψ := by
  rw [applyMat_comp h hd, applyMat_congr hUV, applyMat_one_id h]

theorem applyMat_add [CommSemiring R] (U : Nat → Nat → R) (φ ψ : U64 → R) :
    applyMat ts U cs (fun j => φ j + ψ j) = fun j => applyMat ts U cs φ j + applyMat ts U cs ψ j := by
  funext j
  unfold applyMat
  split
  · rw [← Finset.sum_add_distrib]
    apply Finset.sum_congr rfl
    intro x _
    rw [mul_add]
  · rfl

theorem applyMat_smul [CommSemiring R] (U : Nat → Nat → R) (z : R) (ψ : U64 → R) :
    applyMat ts U cs (fun j => z * ψ j) = fun j => z * applyMat ts U cs ψ j := by
  funext j
  unfold applyMat
  split
  · rw [Finset.mul_sum]
    apply Finset.sum_congr rfl
    intro x _
    ring
  · rfl

end

/-! ## listing the targets in another order -/

/-- the number `x` of bits listed in order `ts`, with the same bits listed in order `ts'` -/
def reorder (ts ts' : List Nat) (x : Nat) : Nat := getBits (putBits 0 ts x) ts'

theorem getBits_congr {j j' : U64} {ts : List Nat} (h : ∀ q ∈ ts, j.getLsbD q = j'.getLsbD q) :
    getBits j ts = getBits j' ts := by
  induction ts with
  | nil => rfl
  | cons q qs ih =>
    simp only [getBits]
    rw [h q (by simp), ih fun p hp => h p (by simp [hp])]

theorem reorder_getBits {ts ts' : List Nat} (h : TargetsOK ts) (hp : ∀ q ∈ ts', q ∈ ts) (j : U64) :
    reorder ts ts' (getBits j ts) = getBits j ts' := by
  unfold reorder
  apply getBits_congr
  intro q hq
  obtain ⟨k, hk, rfl⟩ := List.getElem_of_mem (hp q hq)
  rw [getLsbD_putBits_get 0 h.nodup h.lt _ hk, testBit_getBits, List.getElem?_eq_getElem hk]

theorem putBits_reorder {ts ts' : List Nat} (h : TargetsOK ts) (h' : TargetsOK ts') (hp : ∀ q, q ∈ ts ↔ q ∈ ts')
    (j : U64) (x : Nat) : putBits j ts' (reorder ts ts' x) = putBits j ts x := by
  apply U64.ext; intro i _
  by_cases hi : i ∈ ts'
  · obtain ⟨k, hk, rfl⟩ := List.getElem_of_mem hi
    rw [getLsbD_putBits_get j h'.nodup h'.lt _ hk, reorder, testBit_getBits, List.getElem?_eq_getElem hk]
    simp only
    obtain ⟨l, hl, hl'⟩ := List.getElem_of_mem ((hp _).2 hi)
    rw [← hl', getLsbD_putBits_get _ h.nodup h.lt _ hl, getLsbD_putBits_get _ h.nodup h.lt _ hl]
  · rw [getLsbD_putBits_notMem j h'.lt _ hi, getLsbD_putBits_notMem j h.lt _ (mt (hp i).1 hi)]

theorem reorder_reorder {ts ts' : List Nat} (h : TargetsOK ts) (h' : TargetsOK ts') (hp : ∀ q, q ∈ ts ↔ q ∈ ts')
    {x : Nat} (hx : x < 2 ^ ts.length) : reorder ts' ts (reorder ts ts' x) = x := by
  rw [reorder, putBits_reorder h h' hp, getBits_putBits 0 h hx]

theorem applyMat_reorder {R : Type} [AddCommMonoid R] [Mul R] {ts ts' : List Nat} {cs : List (Nat × Bool)}
    (h : TargetsOK ts) (h' : TargetsOK ts') (hp : ∀ q, q ∈ ts ↔ q ∈ ts') (U : Nat → Nat → R) :
    applyMat ts U cs = applyMat ts' (fun r s => U (reorder ts' ts r) (reorder ts' ts s)) cs := by
  have hlen : ts.length = ts'.length :=
    ((List.perm_ext_iff_of_nodup h.nodup h'.nodup).2 hp).length_eq
  funext ψ j
  unfold applyMat
  split
  · refine Finset.sum_nbij' (reorder ts ts') (reorder ts' ts) ?_ ?_ ?_ ?_ ?_
    · intro x _; rw [Finset.mem_range]; exact getBits_lt _ _
    · intro x _; rw [Finset.mem_range]; exact getBits_lt _ _
    · intro x hx; exact reorder_reorder h h' hp (Finset.mem_range.1 hx)
    · intro x hx; exact reorder_reorder h' h (fun q => (hp q).symm) (Finset.mem_range.1 hx)
    · intro x hx
      dsimp only
      rw [reorder_getBits h' (fun q hq => (hp q).1 hq), reorder_reorder h h' hp (Finset.mem_range.1 hx),
        putBits_reorder h h' hp]
  · rfl

/-! ## restriction to the state -/

/-- the operator only uses amplitudes inside the state -/
theorem putBits_inState {n B : Nat} {ts : List Nat} (h64 : ∀ q ∈ ts, q < 64) (hn : ∀ q ∈ ts, q < n) (j : U64)
    (x : Nat) : (putBits j ts x).toNat < B * 2 ^ n ↔ j.toNat < B * 2 ^ n :=
  inState_congr fun i hi => getLsbD_putBits_notMem j h64 x fun hm => by have := hn i hm; omega

theorem onState_comp {R : Type} {dim : Nat} {f g : (U64 → R) → U64 → R}
    (hf : ∀ φ φ' : U64 → R, (∀ j, j.toNat < dim → φ j = φ' j) → ∀ j, j.toNat < dim → f φ j = f φ' j)
    (ψ : U64 → R) : onState dim f (onState dim g ψ) = onState dim (fun φ => f (g φ)) ψ := by
  funext j
  unfold onState
  by_cases hj : j.toNat < dim
  · rw [if_pos hj, if_pos hj]
    apply hf _ _ _ _ hj
    intro i hi
    rw [if_pos hi]
  · rw [if_neg hj, if_neg hj, if_neg hj]

theorem applyMat_local {R : Type} [AddCommMonoid R] [Mul R] {n B : Nat} {ts : List Nat}
    {cs : List (Nat × Bool)} (h64 : ∀ q ∈ ts, q < 64) (hn : ∀ q ∈ ts, q < n) (U : Nat → Nat → R) (φ φ' : U64 → R)
    (h : ∀ j : U64, j.toNat < B * 2 ^ n → φ j = φ' j) (j : U64) (hj : j.toNat < B * 2 ^ n) :
    applyMat ts U cs φ j = applyMat ts U cs φ' j := by
  unfold applyMat
  split
  · apply Finset.sum_congr rfl
    intro x _
    rw [h _ ((putBits_inState h64 hn j x).2 hj)]
  · exact h j hj

/-- the indices of a state of `dim` amplitudes -/
def indices (dim : Nat) : Finset U64 := (Finset.range dim).image (BitVec.ofNat 64)

theorem mem_indices {dim : Nat} (h : dim ≤ 2 ^ 64) {j : U64} : j ∈ indices dim ↔ j.toNat < dim := by
  unfold indices
  rw [Finset.mem_image]
  constructor
  · rintro ⟨x, hx, rfl⟩
    rw [Finset.mem_range] at hx
    rw [BitVec.toNat_ofNat, Nat.mod_eq_of_lt (by omega)]; exact hx
  · intro hj
    exact ⟨j.toNat, Finset.mem_range.2 hj, by simp⟩

/-- squared norm of the state -/
noncomputable def normSq (dim : Nat) (ψ : U64 → ℂ) : ℝ := ∑ j ∈ indices dim, Complex.normSq (ψ j)

/-- inner product `⟨φ|ψ⟩` of two states -/
noncomputable def inner (dim : Nat) (φ ψ : U64 → ℂ) : ℂ := ∑ j ∈ indices dim, (starRingEnd ℂ) (φ j) * ψ j

theorem inner_self (dim : Nat) (ψ : U64 → ℂ) : inner dim ψ ψ = (normSq dim ψ : ℂ) := by
  unfold inner normSq
  rw [Complex.ofReal_sum]
  apply Finset.sum_congr rfl
  intro j _
  rw [mul_comm, Complex.mul_conj]

theorem inner_congr {dim : Nat} (hd : dim ≤ 2 ^ 64) {φ φ' ψ ψ' : U64 → ℂ}
    (h1 : ∀ j, j.toNat < dim → φ j = φ' j) (h2 : ∀ j, j.toNat < dim → ψ j = ψ' j) :
    inner dim φ ψ = inner dim φ' ψ' := by
  unfold inner
  apply Finset.sum_congr rfl
  intro j hj
  rw [mem_indices hd] at hj
  rw [h1 j hj, h2 j hj]

/-- reindexing pairs (index, new target bits) -/
theorem sum_pairs {S : Type} [AddCommMonoid S] {ts : List Nat} (h : TargetsOK ts) (I : Finset U64)
    (hI : ∀ j x, j ∈ I → putBits j ts x ∈ I) (F : U64 → U64 → Nat → Nat → S) :
    ∑ j ∈ I, ∑ x ∈ Finset.range (2 ^ ts.length), F j (putBits j ts x) (getBits j ts) x =
    ∑ j ∈ I, ∑ x ∈ Finset.range (2 ^ ts.length), F (putBits j ts x) j x (getBits j ts) := by
  rw [← Finset.sum_product', ← Finset.sum_product']
  refine Finset.sum_nbij' (fun p => (putBits p.1 ts p.2, getBits p.1 ts))
    (fun p => (putBits p.1 ts p.2, getBits p.1 ts)) ?_ ?_ ?_ ?_ ?_
  · intro p hp
    rw [Finset.mem_product] at hp ⊢
    exact ⟨hI _ _ hp.1, Finset.mem_range.2 (getBits_lt _ _)⟩
  · intro p hp
    rw [Finset.mem_product] at hp ⊢
    exact ⟨hI _ _ hp.1, Finset.mem_range.2 (getBits_lt _ _)⟩
  · intro p hp
    rw [Finset.mem_product] at hp
    simp only [putBits_putBits p.1 h, putBits_getBits p.1 h, getBits_putBits p.1 h (Finset.mem_range.1 hp.2)]
  · intro p hp
    rw [Finset.mem_product] at hp
    simp only [putBits_putBits p.1 h, putBits_getBits p.1 h, getBits_putBits p.1 h (Finset.mem_range.1 hp.2)]
  · intro p hp
    rw [Finset.mem_product] at hp
    simp only [putBits_putBits p.1 h, putBits_getBits p.1 h, getBits_putBits p.1 h (Finset.mem_range.1 hp.2)]

/-- the adjoint of the operator of `U` is the operator of `U†` -/
theorem inner_applyMat {n B : Nat} {ts : List Nat} {cs : List (Nat × Bool)} (hB : B * 2 ^ n ≤ 2 ^ 64)
    (h : TargetsOK ts) (hd : CtrlDisj cs ts) (hn : ∀ q ∈ ts, q < n) (U : Nat → Nat → ℂ) (φ ψ : U64 → ℂ) :
    inner (B * 2 ^ n) φ (applyMat ts U cs ψ) = inner (B * 2 ^ n) (applyMat ts (matDag U) cs φ) ψ := by
  have hI : ∀ j x, j ∈ indices (B * 2 ^ n) → putBits j ts x ∈ indices (B * 2 ^ n) := by
    intro j x hj
    rw [mem_indices hB] at hj ⊢
    exact (putBits_inState h.lt hn j x).2 hj
  have e1 : inner (B * 2 ^ n) φ (applyMat ts U cs ψ) =
      (∑ j ∈ indices (B * 2 ^ n), ∑ x ∈ Finset.range (2 ^ ts.length),
        if CtrlOK cs j then (starRingEnd ℂ) (φ j) * (U (getBits j ts) x * ψ (putBits j ts x)) else 0) +
      ∑ j ∈ indices (B * 2 ^ n), if CtrlOK cs j then 0 else (starRingEnd ℂ) (φ j) * ψ j := by
    rw [← Finset.sum_add_distrib]
    apply Finset.sum_congr rfl
    intro j _
    unfold applyMat
    by_cases hc : CtrlOK cs j
    · simp only [hc, if_true, Finset.mul_sum, add_zero]
    · simp only [hc, if_false, Finset.sum_const_zero, zero_add]
  have e2 : inner (B * 2 ^ n) (applyMat ts (matDag U) cs φ) ψ =
      (∑ j ∈ indices (B * 2 ^ n), ∑ x ∈ Finset.range (2 ^ ts.length),
        if CtrlOK cs j then (U x (getBits j ts) * (starRingEnd ℂ) (φ (putBits j ts x))) * ψ j else 0) +
      ∑ j ∈ indices (B * 2 ^ n), if CtrlOK cs j then 0 else (starRingEnd ℂ) (φ j) * ψ j := by
    rw [← Finset.sum_add_distrib]
    apply Finset.sum_congr rfl
    intro j _
    unfold applyMat matDag
    by_cases hc : CtrlOK cs j
    · simp only [hc, if_true, map_sum, map_mul, Complex.conj_conj, Finset.sum_mul, add_zero]
    · simp only [hc, if_false, Finset.sum_const_zero, zero_add]
  rw [e1, e2]
  congr 1
  have := sum_pairs h (indices (B * 2 ^ n)) hI (fun a b r s =>
    if CtrlOK cs a then (starRingEnd ℂ) (φ a) * (U r s * ψ b) else 0)
  rw [this]
  apply Finset.sum_congr rfl
  intro j _
  apply Finset.sum_congr rfl
  intro x _
  rw [if_congr (ctrlOK_putBits h hd j x) rfl rfl]
  split
  · ring
  · rfl

/-- a unitary matrix gives a norm-preserving operator -/
theorem normSq_applyMat {n B : Nat} {ts : List Nat} {cs : List (Nat × Bool)} (hB : B * 2 ^ n ≤ 2 ^ 64)
    (h : TargetsOK ts) (hd : CtrlDisj cs ts) (hn : ∀ q ∈ ts, q < n) {U : Nat → Nat → ℂ}
    (hU : ∀ r s, r < 2 ^ ts.length → s < 2 ^ ts.length → matMul ts.length (matDag U) U r s = matOne r s)
    (ψ : U64 → ℂ) : normSq (B * 2 ^ n) (applyMat ts U cs ψ) = normSq (B * 2 ^ n) ψ := by
  have := inner_applyMat hB h hd hn U (applyMat ts U cs ψ) ψ
  rw [applyMat_inverse h hd hU, inner_self, inner_self] at this
  exact_mod_cast this

end Verif.Spec
