import Verif.Proofs.DensityOps
import Verif.Proofs.Sampling

/-! # Reading a density matrix -/

namespace Verif.Proofs
open Verif Verif.Spec Verif.Model
open scoped ComplexConjugate
attribute [-simp] BitVec.getLsbD_eq_getElem

theorem diag_ok {d : DM} {i : U64} (hi : i.toNat < 2 ^ d.n) : d.diag i = .ok (d.raw (i, i)).re := by
  unfold DM.diag readM
  rw [if_pos ⟨hi, hi⟩]
  rfl

theorem zeroSumM {d : DM} {q : Nat} (hn : d.n ≤ 63) (hq : q < d.n) :
    reduceSum ((2 ^ d.n) >>> 1) (fun i => d.diag (insertZeroAt i q)) =
      .ok (∑ j ∈ indices (2 ^ d.n), if j.getLsbD q = false then (d.raw (j, j)).re else 0) := by
  obtain ⟨m, hm⟩ : ∃ m, d.n = m + 1 := ⟨d.n - 1, by omega⟩
  have hs : (2 ^ d.n) >>> 1 = 2 ^ m := by rw [hm, Nat.shiftRight_eq_div_pow, pow_succ]; simp
  rw [hs, reduceSum_ok (g := fun i => (d.raw (insertBit (BitVec.ofNat 64 i) q false, insertBit (BitVec.ofNat 64 i) q false)).re)]
  · rw [insertBit_sum (by omega) (by omega) false (fun j => (d.raw (j, j)).re), hm]
  · intro i hi
    rw [insertBit_false]
    apply diag_ok
    rw [← insertBit_false, hm]
    exact insertBit_lt (by omega) (by omega) (by rw [toNat_ofNat_pow (by omega) hi]; exact hi) _

open Classical in
theorem marginalSumM {d : DM} (hn : d.n ≤ 63) {pattern : List Nat} (hl : pattern.length = d.n) :
    reduceSum ((2 ^ d.n) >>> (measuredOf 0 pattern).length)
      (fun i => d.diag (insertValues i ((measuredOf 0 pattern).map fun p => (p.1, p.2.toNat)))) =
      .ok (∑ j ∈ indices (2 ^ d.n), if Matches pattern j then (d.raw (j, j)).re else 0) := by
  have hlen := measuredOf_length 0 pattern
  have hsort := measuredOf_sorted 0 pattern
  have hge := measuredOf_ge 0 pattern
  simp only [insertValues_eq]
  set l := measuredOf 0 pattern with hldef
  have hm : d.n = (d.n - l.length) + l.length := by omega
  have hsh : (2 ^ d.n) >>> l.length = 2 ^ (d.n - l.length) := by
    rw [Nat.shiftRight_eq_div_pow, Nat.pow_div (by omega) (by omega)]
  have hlt : ∀ q ∈ l, q.1 < d.n - l.length + l.length := fun q hq => by have := hge q hq; omega
  rw [hsh, reduceSum_ok (g := fun i => (d.raw (insertBits (BitVec.ofNat 64 i) l, insertBits (BitVec.ofNat 64 i) l)).re)]
  · rw [insertBits_sum (by omega) hsort hlt (fun j => (d.raw (j, j)).re), ← hm]
    congr 1
    apply Finset.sum_congr rfl
    intro j _
    have := matches_iff pattern j
    by_cases h : Matches pattern j
    · rw [if_pos h, if_pos (this.2 h)]
    · rw [if_neg h, if_neg (fun h' => h (this.1 h'))]
  · intro i hi
    apply diag_ok
    have := insertBits_lt (m := d.n - l.length) (by omega) hsort hlt (i := BitVec.ofNat 64 i)
      (by rw [toNat_ofNat_pow (by omega) hi]; exact hi)
    rwa [← hm] at this

theorem purity_eq {d : DM} (hn : d.n ≤ 63) (hh : d.hermitian = true) :
    d.purity = .ok (∑ i ∈ indices (2 ^ d.n), ∑ j ∈ indices (2 ^ d.n), Complex.normSq (d.raw (i, j))) := by
  unfold DM.purity
  rw [if_neg (by simp [hh])]
  have hp := pow64 hn
  rw [reduceSum_ok (g := fun i => ∑ j ∈ indices (2 ^ d.n), Complex.normSq (d.raw (BitVec.ofNat 64 i, j)))]
  · rw [sum_indices hp]
  · intro i hi
    rw [reduceSum_ok (g := fun j => Complex.normSq (d.raw (BitVec.ofNat 64 i, BitVec.ofNat 64 j)))]
    · rw [sum_indices hp]
    · intro j hj
      unfold readM
      rw [if_pos ⟨by rw [toNat_ofNat_pow hn hi]; exact hi, by rw [toNat_ofNat_pow hn hj]; exact hj⟩]
      rfl

/-- for a Hermitian matrix the sum of the squared moduli is the trace of the square -/
theorem purity_trace {n : Nat} (hn : n ≤ 63) {ρ : U64 × U64 → ℂ} (h : HermitianOn (2 ^ n) ρ) :
    ((∑ i ∈ indices (2 ^ n), ∑ j ∈ indices (2 ^ n), Complex.normSq (ρ (i, j)) : ℝ) : ℂ) =
      ∑ i ∈ indices (2 ^ n), ∑ j ∈ indices (2 ^ n), ρ (i, j) * ρ (j, i) := by
  have hp := pow64 hn
  rw [Complex.ofReal_sum]
  refine Finset.sum_congr rfl fun i hi => ?_
  rw [Complex.ofReal_sum]
  refine Finset.sum_congr rfl fun j hj => ?_
  rw [h j i ((mem_indices hp).1 hj) ((mem_indices hp).1 hi), Complex.mul_conj]

theorem entropyM_eq {d : DM} (hn : d.n ≤ 63) (hh : d.hermitian = true) :
    d.entropy = .ok (∑ j ∈ indices (2 ^ d.n), if 0 < (d.raw (j, j)).re then
      (d.raw (j, j)).re * Real.logb 2 (1 / (d.raw (j, j)).re) else 0) := by
  unfold DM.entropy
  rw [if_neg (by simp [hh]), sum_indices (pow64 hn)]
  apply reduceSum_ok (g := fun i => if 0 < (d.raw (BitVec.ofNat 64 i, BitVec.ofNat 64 i)).re then
      (d.raw (BitVec.ofNat 64 i, BitVec.ofNat 64 i)).re * Real.logb 2 (1 / (d.raw (BitVec.ofNat 64 i, BitVec.ofNat 64 i)).re) else 0)
  intro i hi
  rw [diag_ok (by rw [toNat_ofNat_pow hn hi]; exact hi), ok_bind]
  show Except.ok _ = _
  congr 1
  split
  · rw [one_div, Real.logb_inv]; ring
  · rfl

/-- a vector with the same distribution as the diagonal -/
noncomputable def diagVector (d : DM) : U64 → ℂ := fun j => (Real.sqrt (d.raw (j, j)).re : ℂ)

theorem normSq_diagVector {d : DM} {j : U64} (h : 0 ≤ (d.raw (j, j)).re) : Complex.normSq (diagVector d j) = (d.raw (j, j)).re := by
  unfold diagVector
  rw [Complex.normSq_ofReal, Real.mul_self_sqrt h]

theorem scanl_congr {α β : Type} {f g : β → α → β} {l : List α} (h : ∀ a ∈ l, ∀ b, f b a = g b a) (b : β) :
    l.scanl f b = l.scanl g b := by
  induction l generalizing b with
  | nil => rfl
  | cons a l ih =>
    rw [List.scanl_cons, List.scanl_cons, h a List.mem_cons_self, ih fun x hx => h x (List.mem_cons_of_mem _ hx)]

theorem stackedProbM {d : DM} (hn : d.n ≤ 63) (h : ∀ j : U64, j.toNat < 2 ^ d.n → 0 ≤ (d.raw (j, j)).re) :
    d.stackedProb = stackedProb d.n (diagVector d) := by
  unfold DM.stackedProb stackedProb
  apply scanl_congr
  intro i hi b
  rw [List.mem_range] at hi
  rw [normSq_diagVector (h _ (by rw [toNat_ofNat_pow hn hi]; exact hi))]

theorem samplesM {d : DM} (hn : d.n ≤ 63) (hh : d.hermitian = true) (h : ∀ j : U64, j.toNat < 2 ^ d.n → 0 ≤ (d.raw (j, j)).re)
    (count : Nat) (rnd : Nat → Nat → ℝ) (final : List Nat) :
    d.Samples count rnd final ↔ Samples d.n (diagVector d) count rnd final := by
  unfold DM.Samples Samples
  rw [stackedProbM hn h]
  simp [hh]

theorem normSq_diag {d : DM} (hn : d.n ≤ 63) (h : ∀ j : U64, j.toNat < 2 ^ d.n → 0 ≤ (d.raw (j, j)).re) :
    normSq (2 ^ d.n) (diagVector d) = (traceOf (2 ^ d.n) d.raw).re := by
  rw [traceOf_indices (by omega), Complex.re_sum]
  unfold Spec.normSq
  exact Finset.sum_congr rfl fun j hj => normSq_diagVector (h j ((mem_indices (pow64 hn)).1 hj))

theorem cumProb_diag {d : DM} (hn : d.n ≤ 63) (h : ∀ j : U64, j.toNat < 2 ^ d.n → 0 ≤ (d.raw (j, j)).re) {k : Nat} (hk : k ≤ 2 ^ d.n) :
    cumProb (diagVector d) k = ∑ i ∈ Finset.range k, (d.raw (BitVec.ofNat 64 i, BitVec.ofNat 64 i)).re := by
  unfold cumProb
  refine Finset.sum_congr rfl fun i hi => ?_
  have hi' : i < 2 ^ d.n := lt_of_lt_of_le (Finset.mem_range.1 hi) hk
  exact normSq_diagVector (h _ (by rw [toNat_ofNat_pow hn hi']; exact hi'))

end Verif.Proofs
