import Verif.Model.DensityKernels
import Verif.Spec.Density
import Verif.Proofs.GateUpdate

/-! # Density-matrix kernels: block kernels and two-pass kernels -/

namespace Verif.Proofs
open Verif Verif.Spec Verif.Model
open scoped ComplexConjugate
attribute [-simp] BitVec.getLsbD_eq_getElem

/-- the conjugated matrix computes the conjugated operator -/
theorem applyMat_conj (ts : List Nat) (U : Nat → Nat → ℂ) (cs : List (Nat × Bool)) (φ : U64 → ℂ) (j : U64) :
    applyMat ts (fun r s => conj (U r s)) cs φ j = conj (applyMat ts U cs (fun i => conj (φ i)) j) := by
  unfold applyMat
  split
  · rw [map_sum]
    exact Finset.sum_congr rfl fun x _ => by rw [map_mul, Complex.conj_conj]
  · rw [Complex.conj_conj]

/-- a pass over the rows followed by a pass over the columns -/
theorem two_pass {n N : Nat} (hn : n < 32) (hN : N ≤ 2 ^ n) {ts : List Nat} (h64 : ∀ q ∈ ts, q < 64) (hts : ∀ q ∈ ts, q < n)
    {U : Nat → Nat → ℂ} {cs : List (Nat × Bool)} {bodyL bodyR : U64 → Prog U64 ℂ Unit}
    {L R : U64 → U64 → Prog (U64 × U64) ℂ Unit}
    (hL : ∀ it col, L it col = (bodyL it).mapAddr (fun r => (r, col)))
    (hR : ∀ row it, R row it = (bodyR it).mapAddr (fun c => (row, c)))
    (h1 : ∀ m, Runs (InState (2 ^ n)) (parallelFor N bodyL) m (onState (2 ^ n) (applyMat ts U cs) m))
    (h2 : ∀ m, Runs (InState (2 ^ n)) (parallelFor N bodyR) m (onState (2 ^ n) (applyMat ts (fun r s => conj (U r s)) cs) m))
    (M : U64 × U64 → ℂ) :
    MRuns (2 ^ n) [pairFor N (2 ^ n) L, pairFor (2 ^ n) N R] M (onMatrix (2 ^ n) (applyMat ts U cs) M) := by
  have hd : (2 : Nat) ^ n < 2 ^ 32 := Nat.pow_lt_pow_right (by norm_num) hn
  have hNd : N * 2 ^ n < 2 ^ 64 := lt_of_le_of_lt (Nat.mul_le_mul_right _ hN) (by
    calc 2 ^ n * 2 ^ n < 2 ^ 32 * 2 ^ 32 := Nat.mul_lt_mul'' hd hd
      _ = 2 ^ 64 := by norm_num)
  have r1 := rows_run hNd (by omega) hL _ h1 M
  have r2 := cols_run (by rwa [Nat.mul_comm]) (by omega) (by omega) hR _ h2
    (fun p => if InState (2 ^ n) p.2 then onState (2 ^ n) (applyMat ts U cs) (fun r => M (r, p.2)) p.1 else M p)
  refine ⟨_, r1, _, r2, ?_⟩
  show onMatrix _ _ _ = _
  funext ⟨r, c⟩
  unfold onMatrix onState InState
  dsimp only
  by_cases a : r.toNat < 2 ^ n
  · by_cases b : c.toNat < 2 ^ n
    · simp only [a, b, and_self, if_true]
      rw [applyMat_conj]
      congr 1
      refine (applyMat_local (B := 1) (n := n) h64 hts U _ _ ?_ _ (by rwa [Nat.one_mul]))
      intro c hc
      rw [Nat.one_mul] at hc
      rw [if_pos hc]
    · simp only [a, b, and_false, if_true, if_false]
  · simp only [a, false_and, if_false, ite_self]

/-- A kernel on blocks with `k × k` cells: on a block the operator is the matrix `E`. -/
theorem block_spec {n k : Nat} {t : U64} (h : MasksOK 1 n t 0 0) (hn : n < 32) (F : (U64 → ℂ) → U64 → ℂ) (cell : U64 → Fin k → U64)
    (E : Fin k → Fin k → ℂ) (g : (Fin k → U64) → (Fin k → U64) → Prog (U64 × U64) ℂ Unit) (M : U64 × U64 → ℂ)
    (hcell : ∀ b, IsBase (2 ^ n) t 0 0 b → ∀ j, InBlock t b j ↔ ∃ i, j = cell b i)
    (hinj : ∀ b, IsBase (2 ^ n) t 0 0 b → Function.Injective (cell b))
    (hF : ∀ b, IsBase (2 ^ n) t 0 0 b → ∀ ψ i, F ψ (cell b i) = ∑ x, E i x * ψ (cell b x))
    (hwithin : ∀ r c, (g r c).Within (fun p => (∃ i, p.1 = r i) ∧ ∃ j, p.2 = c j))
    (hexec : ∀ r c : Fin k → U64, Function.Injective r → Function.Injective c → ∀ i j,
      (g r c).exec M (r i, c j) = ∑ y, conj (E j y) * ∑ x, E i x * M (r x, c y)) :
    MRuns (2 ^ n) [pairFor (workItems (2 ^ n) t) (workItems (2 ^ n) t)
      (fun ir ic => g (cell (insertZero ir t)) (cell (insertZero ic t)))] M (onMatrix (2 ^ n) F M) := by
  refine ⟨_, pairKernel_runs h hn (fun br bc => g (cell br) (cell bc)) M (onMatrix (2 ^ n) F M) ?_ ?_ ?_, rfl⟩
  · intro br bc hr hc
    refine Prog.within_mono ?_ (hwithin _ _)
    rintro p ⟨hp1, hp2⟩
    exact ⟨(hcell br hr _).2 hp1, (hcell bc hc _).2 hp2⟩
  · rintro br bc ⟨p1, p2⟩ hr hc h1 h2
    have m1 := (inBlock_mem h (by rwa [Nat.one_mul]) h1).1
    have m2 := (inBlock_mem h (by rwa [Nat.one_mul]) h2).1
    rw [Nat.one_mul] at m1 m2
    obtain ⟨i, rfl⟩ := (hcell br hr _).1 h1
    obtain ⟨j, rfl⟩ := (hcell bc hc _).1 h2
    rw [hexec _ _ (hinj br hr) (hinj bc hc)]
    unfold onMatrix
    rw [if_pos ⟨m1, m2⟩]
    dsimp only
    rw [hF bc hc, map_sum]
    refine Finset.sum_congr rfl fun y _ => ?_
    rw [map_mul, Complex.conj_conj, hF br hr]
  · intro p hp
    exact if_neg hp

/-! ## the two kinds of blocks -/

/-- the two indices of a one-target block -/
def pairCells (t b : U64) : Fin 2 → U64 := ![b, b ||| t]

/-- `U` as a matrix on a two-element block -/
def blockMat2 (U : Nat → Nat → ℂ) : Fin 2 → Fin 2 → ℂ := fun i j => U i j

theorem pairCells_iff {n q : Nat} {t b : U64} (hq : IsBit t q) (hb : IsBase (2 ^ n) t 0 0 b) (j : U64) :
    InBlock t b j ↔ ∃ i, j = pairCells t b i := by
  have hbq : b.getLsbD q = false := hb.target q (by rw [hq.2]; simp)
  rw [inBlock_one hq hbq]
  constructor
  · rintro (⟨h, -⟩ | ⟨h, -⟩)
    · exact ⟨0, h⟩
    · exact ⟨1, h⟩
  · rintro ⟨i, hi⟩
    fin_cases i
    · exact Or.inl ⟨hi, by rw [hi]; exact hbq⟩
    · refine Or.inr ⟨hi, ?_⟩
      rw [hi]
      show (b ||| t).getLsbD q = true
      rw [getLsbD_or_bit hq]; simp

theorem pairCells_inj {n q : Nat} {t b : U64} (hq : IsBit t q) (hb : IsBase (2 ^ n) t 0 0 b) : Function.Injective (pairCells t b) := by
  have hbq : b.getLsbD q = false := hb.target q (by rw [hq.2]; simp)
  have hne := ne_or_bit hq hbq
  intro i j
  fin_cases i <;> fin_cases j <;> simp only [pairCells, Fin.isValue, Fin.zero_eta, Fin.mk_one, Matrix.cons_val_zero,
    Matrix.cons_val_one, Matrix.cons_val_fin_one, imp_self, implies_true]
  · exact fun h => absurd h hne
  · exact fun h => absurd h.symm hne

theorem pairCells_op {n q : Nat} {t b : U64} (hq : IsBit t q) (hb : IsBase (2 ^ n) t 0 0 b) (U : Nat → Nat → ℂ) (ψ : U64 → ℂ) (i : Fin 2) :
    applyMat [q] U [] ψ (pairCells t b i) = ∑ x, blockMat2 U i x * ψ (pairCells t b x) := by
  have hbq : b.getLsbD q = false := hb.target q (by rw [hq.2]; simp)
  have e0 : setBit b q false = b := by have := setBit_self b hq.1; rwa [hbq] at this
  have e1 : setBit (b ||| t) q false = b := by rw [or_bit_eq hq, setBit_setBit _ hq.1, e0]
  have e2 : setBit (b ||| t) q true = b ||| t := by rw [or_bit_eq hq, setBit_setBit _ hq.1]
  have e3 : (b ||| t).getLsbD q = true := by rw [getLsbD_or_bit hq]; simp
  have hok : ∀ j, CtrlOK [] j := by intro j p hp; cases hp
  rw [applyMat_one, if_pos (hok _), Fin.sum_univ_two]
  fin_cases i
  · simp only [pairCells, blockMat2, Fin.zero_eta, Matrix.cons_val_zero, Matrix.cons_val_one, hbq, e0, ← or_bit_eq hq]
    rfl
  · simp only [pairCells, blockMat2, Fin.mk_one, Matrix.cons_val_zero, Matrix.cons_val_one, e1, e2, e3]
    rfl

/-- the four indices of a block over two bits, as the code lists them for one control: active, active with target bit,
inactive, inactive with target bit -/
def quadCells (t act ina b : U64) : Fin 4 → U64 := ![b ||| act, b ||| act ||| t, b ||| ina, b ||| ina ||| t]

/-- controlled `U` as a matrix on such a block -/
def ctrlMat4 (U : Nat → Nat → ℂ) : Fin 4 → Fin 4 → ℂ :=
  ![![U 0 0, U 0 1, 0, 0], ![U 1 0, U 1 1, 0, 0], ![0, 0, 1, 0], ![0, 0, 0, 1]]

section
variable {n q qc : Nat} {t c b : U64} {val : Bool}

/-- the index with control bit `a` and target bit `x` -/
def ctCell (q qc : Nat) (b : U64) (a x : Bool) : U64 := setBit (setBit b qc a) q x

theorem quadCells_eq (hq : IsBit t q) (hqc : IsBit c qc) (hne : q ≠ qc) (hb0 : b.getLsbD q = false) (hb1 : b.getLsbD qc = false) :
    quadCells t (if val then c else 0) (if val then 0 else c) b =
      ![ctCell q qc b val false, ctCell q qc b val true, ctCell q qc b (!val) false, ctCell q qc b (!val) true] := by
  have e0 : setBit b q false = b := by have := setBit_self b hq.1; rwa [hb0] at this
  have e1 : setBit b qc false = b := by have := setBit_self b hqc.1; rwa [hb1] at this
  have e2 : ∀ x : Bool, setBit (setBit b qc x) q false = setBit b qc x := by
    intro x; rw [setBit_comm _ hqc.1 hq.1 (Ne.symm hne), e0]
  have z : ∀ x : U64, x ||| 0 = x := fun _ => BitVec.or_zero
  unfold quadCells ctCell
  cases val
  · simp only [Bool.false_eq_true, if_false, Bool.not_false, z, or_bit_eq hq, or_bit_eq hqc, e2, e1, e0]
  · simp only [if_true, Bool.not_true, z, or_bit_eq hq, or_bit_eq hqc, e2, e1, e0]

theorem ctCell_q (hq : q < 64) (a x : Bool) : (ctCell q qc b a x).getLsbD q = x := by
  unfold ctCell; rw [getLsbD_setBit _ hq, if_pos rfl]
theorem ctCell_qc (hq : q < 64) (hqc : qc < 64) (hne : q ≠ qc) (a x : Bool) : (ctCell q qc b a x).getLsbD qc = a := by
  unfold ctCell; rw [getLsbD_setBit _ hq, if_neg (Ne.symm hne), getLsbD_setBit _ hqc, if_pos rfl]
theorem ctCell_set (hq : q < 64) (a x y : Bool) : setBit (ctCell q qc b a x) q y = ctCell q qc b a y := by
  unfold ctCell; rw [setBit_setBit _ hq]

theorem ctCell_inj (hq : q < 64) (hqc : qc < 64) (hne : q ≠ qc) {a a' x x' : Bool} (h : ctCell q qc b a x = ctCell q qc b a' x') :
    a = a' ∧ x = x' :=
  ⟨by rw [← ctCell_qc (b := b) hq hqc hne a x, h, ctCell_qc hq hqc hne], by rw [← ctCell_q (qc := qc) (b := b) hq a x, h, ctCell_q hq]⟩

theorem ctCell_block (hq : IsBit t q) (hqc : IsBit c qc) (j : U64) :
    InBlock (t ||| c) b j ↔ ∃ a x, j = ctCell q qc b a x := by
  constructor
  · intro h
    refine ⟨j.getLsbD qc, j.getLsbD q, U64.ext fun i hi => ?_⟩
    unfold ctCell
    rw [getLsbD_setBit _ hq.1, getLsbD_setBit _ hqc.1]
    split
    · subst_vars; rfl
    · split
      · subst_vars; rfl
      · rename_i h1 h2
        exact h i hi (by rw [BitVec.getLsbD_or, hq.2, hqc.2]; simp [h1, h2])
  · rintro ⟨a, x, rfl⟩ i hi ht
    rw [BitVec.getLsbD_or, hq.2, hqc.2] at ht
    simp only [Bool.or_eq_false_iff, decide_eq_false_iff_not] at ht
    unfold ctCell
    rw [getLsbD_setBit _ hq.1, getLsbD_setBit _ hqc.1, if_neg ht.1, if_neg ht.2]

theorem quadCells_iff (hq : IsBit t q) (hqc : IsBit c qc) (hne : q ≠ qc) (hb : IsBase (2 ^ n) (t ||| c) 0 0 b) (j : U64) :
    InBlock (t ||| c) b j ↔ ∃ i, j = quadCells t (if val then c else 0) (if val then 0 else c) b i := by
  have hb0 : b.getLsbD q = false := hb.target q (by rw [BitVec.getLsbD_or, hq.2]; simp)
  have hb1 : b.getLsbD qc = false := hb.target qc (by rw [BitVec.getLsbD_or, hqc.2]; simp)
  rw [ctCell_block hq hqc, quadCells_eq hq hqc hne hb0 hb1]
  constructor
  · rintro ⟨a, x, h⟩
    by_cases ha : a = val
    · subst ha
      cases x
      · exact ⟨0, h⟩
      · exact ⟨1, h⟩
    · obtain rfl : a = !val := by revert ha; cases a <;> cases val <;> simp
      cases x
      · exact ⟨2, h⟩
      · exact ⟨3, h⟩
  · rintro ⟨i, h⟩
    fin_cases i
    · exact ⟨val, false, h⟩
    · exact ⟨val, true, h⟩
    · exact ⟨!val, false, h⟩
    · exact ⟨!val, true, h⟩

theorem quadCells_inj (hq : IsBit t q) (hqc : IsBit c qc) (hne : q ≠ qc) (hb : IsBase (2 ^ n) (t ||| c) 0 0 b) :
    Function.Injective (quadCells t (if val then c else 0) (if val then 0 else c) b) := by
  have hb0 : b.getLsbD q = false := hb.target q (by rw [BitVec.getLsbD_or, hq.2]; simp)
  have hb1 : b.getLsbD qc = false := hb.target qc (by rw [BitVec.getLsbD_or, hqc.2]; simp)
  rw [quadCells_eq hq hqc hne hb0 hb1]
  have key : ∀ i : Fin 4, (![ctCell q qc b val false, ctCell q qc b val true, ctCell q qc b (!val) false, ctCell q qc b (!val) true] i) =
      ctCell q qc b (if i.val < 2 then val else !val) (decide (i.val % 2 = 1)) := by
    intro i; fin_cases i <;> rfl
  intro i j h
  rw [key, key] at h
  obtain ⟨h1, h2⟩ := ctCell_inj hq.1 hqc.1 hne h
  revert h1 h2
  fin_cases i <;> fin_cases j <;> cases val <;> simp

theorem quadCells_op (hq : IsBit t q) (hqc : IsBit c qc) (hne : q ≠ qc) (hb : IsBase (2 ^ n) (t ||| c) 0 0 b)
    {cs : List (Nat × Bool)} (hcs : ∀ j, CtrlOK cs j ↔ j.getLsbD qc = val) (U : Nat → Nat → ℂ) (ψ : U64 → ℂ) (i : Fin 4) :
    applyMat [q] U cs ψ (quadCells t (if val then c else 0) (if val then 0 else c) b i) =
      ∑ x, ctrlMat4 U i x * ψ (quadCells t (if val then c else 0) (if val then 0 else c) b x) := by
  have hb0 : b.getLsbD q = false := hb.target q (by rw [BitVec.getLsbD_or, hq.2]; simp)
  have hb1 : b.getLsbD qc = false := hb.target qc (by rw [BitVec.getLsbD_or, hqc.2]; simp)
  rw [quadCells_eq hq hqc hne hb0 hb1, applyMat_one, Fin.sum_univ_four]
  have nv : (!val) ≠ val := by cases val <;> simp
  fin_cases i <;>
    simp [ctrlMat4, hcs, ctCell_q hq.1, ctCell_qc hq.1 hqc.1 hne, ctCell_set hq.1]

end

end Verif.Proofs
