import Verif.Proofs.StateVec
import Verif.Proofs.Dense

/-! # State vector functions that change the state, entropy and inner product -/

namespace Verif.Proofs
open Verif Verif.Model Verif.Spec
attribute [-simp] BitVec.getLsbD_eq_getElem

theorem ofNat_fin {dim : Nat} (hd : dim ≤ 2 ^ 64) (i : Fin dim) : (BitVec.ofNat 64 i.val).toNat = i.val := by
  rw [BitVec.toNat_ofNat, Nat.mod_eq_of_lt (lt_of_lt_of_le i.isLt hd)]

theorem elementwise_runs {R : Type} {dim : Nat} (hd : dim ≤ 2 ^ 64) (f : U64 → R → R) (m : U64 → R) :
    DRuns dim (.par dim (elementwise dim f)) m (fun j => if InState dim j then f j (m j) else m j) := by
  show Runs (InState dim) (elementwise dim f) m _
  apply runs_of_disjoint _ _ _ _ (fun i a => a = BitVec.ofNat 64 i.val)
  · rintro i j a rfl h
    have := congrArg BitVec.toNat h
    rw [ofNat_fin hd, ofNat_fin hd] at this
    exact Fin.ext this
  · rintro i a rfl
    show (BitVec.ofNat 64 i.val).toNat < dim
    rw [ofNat_fin hd]; exact i.isLt
  · intro i
    exact ⟨rfl, fun _ => ⟨rfl, trivial⟩⟩
  · rintro i a rfl
    have hin : InState dim (BitVec.ofNat 64 i.val) := by
      show (BitVec.ofNat 64 i.val).toNat < dim
      rw [ofNat_fin hd]; exact i.isLt
    show (if InState dim (BitVec.ofNat 64 i.val) then _ else _) =
      Function.update m (BitVec.ofNat 64 i.val) (f _ (m (BitVec.ofNat 64 i.val))) (BitVec.ofNat 64 i.val)
    rw [if_pos hin, Function.update_self]
  · intro a ha
    rw [if_neg]
    intro h
    exact ha ⟨a.toNat, h⟩ (by simp)

theorem fill_runs {R : Type} {dim : Nat} (hd : dim ≤ 2 ^ 64) (f : U64 → R) (m : U64 → R) :
    DRuns dim (.par dim (fill dim f)) m (fun j => if InState dim j then f j else m j) := by
  show Runs (InState dim) (fill dim f) m _
  apply runs_of_disjoint _ _ _ _ (fun i a => a = BitVec.ofNat 64 i.val)
  · rintro i j a rfl h
    have := congrArg BitVec.toNat h
    rw [ofNat_fin hd, ofNat_fin hd] at this
    exact Fin.ext this
  · rintro i a rfl
    show (BitVec.ofNat 64 i.val).toNat < dim
    rw [ofNat_fin hd]; exact i.isLt
  · intro i
    exact ⟨rfl, trivial⟩
  · rintro i a rfl
    have hin : InState dim (BitVec.ofNat 64 i.val) := by
      show (BitVec.ofNat 64 i.val).toNat < dim
      rw [ofNat_fin hd]; exact i.isLt
    show (if InState dim (BitVec.ofNat 64 i.val) then _ else _) =
      Function.update m (BitVec.ofNat 64 i.val) (f _) (BitVec.ofNat 64 i.val)
    rw [if_pos hin, Function.update_self]
  · intro a ha
    rw [if_neg]
    intro h
    exact ha ⟨a.toNat, h⟩ (by simp)

theorem addWithCoef_runs {n n' : Nat} (hn : n ≤ 63) (hnn : n ≤ n') (c : ℂ) (ψ φ : U64 → ℂ) :
    AddsWithCoef n n' c ψ φ (fun j => if InState (2 ^ n) j then ψ j + c * φ j else ψ j) := by
  have hd := pow64 hn
  have hle : 2 ^ n ≤ 2 ^ n' := Nat.pow_le_pow_right (by omega) hnn
  apply runs_of_shared _ _ _ _ (fun i p => p = (false, BitVec.ofNat 64 i.val)) (fun p => p.1 = true ∧ p.2.toNat < 2 ^ n)
  · rintro i j a rfl h
    have := congrArg BitVec.toNat (Prod.ext_iff.1 h).2
    simp only [ofNat_fin hd] at this
    exact Fin.ext this
  · rintro i a rfl ⟨h, -⟩; cases h
  · rintro i a rfl
    show (BitVec.ofNat 64 i.val).toNat < 2 ^ n
    rw [ofNat_fin hd]; exact i.isLt
  · rintro ⟨a, j⟩ ⟨h, h'⟩
    dsimp only at h h' ⊢
    subst h
    show j.toNat < 2 ^ n'
    omega
  · intro i
    refine ⟨.inl rfl, fun _ => ⟨.inr ⟨rfl, ?_⟩, fun _ => ⟨rfl, trivial⟩⟩⟩
    show (BitVec.ofNat 64 i.val).toNat < 2 ^ n
    rw [ofNat_fin hd]; exact i.isLt
  · rintro i a rfl
    have hin : InState (2 ^ n) (BitVec.ofNat 64 i.val) := by
      show (BitVec.ofNat 64 i.val).toNat < 2 ^ n
      rw [ofNat_fin hd]; exact i.isLt
    show (if InState (2 ^ n) (BitVec.ofNat 64 i.val) then _ else _) = Function.update (twoBuffers ψ φ)
      (false, BitVec.ofNat 64 i.val) (ψ (BitVec.ofNat 64 i.val) + c * φ (BitVec.ofNat 64 i.val)) (false, BitVec.ofNat 64 i.val)
    rw [if_pos hin, Function.update_self]
  · rintro ⟨a, j⟩ ha
    cases a
    · show (if InState (2 ^ n) j then _ else _) = ψ j
      rw [if_neg]
      intro h
      exact ha ⟨j.toNat, h⟩ (by simp)
    · rfl

/-- a smaller state is read out of range -/
theorem addWithCoef_small {n n' : Nat} (hn : n ≤ 63) (hnn : n' < n) (c : ℂ) (ψ φ ψ' : U64 → ℂ) :
    ¬ AddsWithCoef n n' c ψ φ ψ' := by
  intro h
  have hd := pow64 hn
  have hlt : 2 ^ n' < 2 ^ n := Nat.pow_lt_pow_right (by omega) hnn
  let i : Fin (2 ^ n) := ⟨2 ^ n', hlt⟩
  let a := BitVec.ofNat 64 i.val
  have ha : a.toNat = 2 ^ n' := ofNat_fin hd i
  have step : Step (fun p : Bool × U64 => p.2.toNat < if p.1 then 2 ^ n' else 2 ^ n)
      (addWithCoef (2 ^ n) c, twoBuffers ψ φ)
      (Function.update (addWithCoef (2 ^ n) c) i ((fun v => Prog.read (true, a) fun b =>
        Prog.write (false, a) (v + c * b) (.pure ())) (twoBuffers ψ φ (false, a))), twoBuffers ψ φ) := by
    refine Step.read (addWithCoef (2 ^ n) c) (twoBuffers ψ φ) i (false, a) (fun v => Prog.read (true, a) fun b =>
        Prog.write (false, a) (v + c * b) (.pure ())) rfl ?_
    show a.toNat < 2 ^ n
    omega
  refine h.in_range _ (.single step) ⟨i, (true, a), ?_, .inl ⟨_, Function.update_self ..⟩⟩
  show ¬ a.toNat < 2 ^ n'
  omega

theorem normSq_smul (dim : Nat) (c : ℂ) (ψ : U64 → ℂ) :
    normSq dim (fun j => if InState dim j then c * ψ j else ψ j) = Complex.normSq c * normSq dim ψ := by
  unfold normSq
  rw [Finset.mul_sum]
  apply Finset.sum_congr rfl
  intro j hj
  have hj' : InState dim j := by
    show j.toNat < dim
    by_cases hd : dim ≤ 2 ^ 64
    · exact (mem_indices hd).1 hj
    · have : j.toNat < 2 ^ 64 := j.isLt
      omega
  dsimp only
  rw [if_pos hj', map_mul]

theorem normSq_nonneg (dim : Nat) (ψ : U64 → ℂ) : 0 ≤ normSq dim ψ :=
  Finset.sum_nonneg fun j _ => Complex.normSq_nonneg _

theorem normalizes {n : Nat} (hn : n ≤ 63) {ψ : U64 → ℂ} (h : normSq (2 ^ n) ψ ≠ 0) :
    Normalizes n ψ (fun j => if InState (2 ^ n) j then ψ j / (Real.sqrt (normSq (2 ^ n) ψ) : ℂ) else ψ j) := by
  have hs : Real.sqrt (normSq (2 ^ n) ψ) ≠ 0 := by
    rw [Real.sqrt_ne_zero']
    exact lt_of_le_of_ne (normSq_nonneg _ _) (Ne.symm h)
  refine ⟨_, ?_, elementwise_runs (pow64 hn) (fun _ a => a / (Real.sqrt (normSq (2 ^ n) ψ) : ℂ)) ψ⟩
  unfold normalizeDev
  rw [squaredNorm_eq hn, ok_bind]
  dsimp only
  rw [if_neg hs]; rfl

theorem normalizes_zero {n : Nat} (hn : n ≤ 63) {ψ : U64 → ℂ} (h : normSq (2 ^ n) ψ = 0) :
    normalizeDev n ψ = .error (.ub "division by zero") := by
  unfold normalizeDev
  rw [squaredNorm_eq hn, ok_bind]
  dsimp only
  rw [h, Real.sqrt_zero, if_pos rfl]

theorem Normalizes.unique {n : Nat} {ψ a b : U64 → ℂ} (h1 : Normalizes n ψ a) (h2 : Normalizes n ψ b) : a = b := by
  obtain ⟨d, e, r⟩ := h1
  obtain ⟨d', e', r'⟩ := h2
  rw [e] at e'
  cases e'
  exact r.unique r'

theorem innerProduct_eq {n : Nat} (hn : n ≤ 63) (a b : U64 → ℂ) : innerProduct n n a b = .ok (inner (2 ^ n) a b) := by
  unfold innerProduct
  rw [if_neg (fun h => h rfl), reduceSum_ok (g := fun i => (starRingEnd ℂ) (a (BitVec.ofNat 64 i)) * b (BitVec.ofNat 64 i))]
  · unfold inner; rw [sum_indices (pow64 hn)]
  · intro i hi
    have : (BitVec.ofNat 64 i).toNat < 2 ^ n := by rw [toNat_ofNat_pow hn hi]; exact hi
    rw [readAt_ok this, readAt_ok this]; rfl

theorem innerProduct_bad {n n' : Nat} (h : n ≠ n') (a b : U64 → ℂ) : ∃ e, innerProduct n n' a b = .error (.throw e) := by
  unfold innerProduct
  rw [if_pos]
  · exact ⟨_, rfl⟩
  · intro e; exact h (Nat.pow_right_injective (le_refl 2) e)

theorem entropy_eq {n : Nat} (hn : n ≤ 63) (ψ : U64 → ℂ) : entropy n ψ = .ok (shannon n ψ) := by
  unfold entropy
  rw [reduceSum_ok (g := fun i => (fun j => if Complex.normSq (ψ j) = 0 then 0 else
    Complex.normSq (ψ j) * Real.logb 2 (1 / Complex.normSq (ψ j))) (BitVec.ofNat 64 i))]
  · unfold shannon; rw [sum_indices (pow64 hn)]
  · intro i hi
    rw [readSq_ok (by rw [toNat_ofNat_pow hn hi]; exact hi), ok_bind]
    show Except.ok _ = Except.ok _
    congr 1
    dsimp only
    have h0 := Complex.normSq_nonneg (ψ (BitVec.ofNat 64 i))
    by_cases h : Complex.normSq (ψ (BitVec.ofNat 64 i)) = 0
    · rw [if_pos h, h, if_neg (lt_irrefl _)]
    · rw [if_neg h, if_pos (lt_of_le_of_ne h0 (Ne.symm h)), one_div, Real.logb_inv]; ring

end Verif.Proofs
