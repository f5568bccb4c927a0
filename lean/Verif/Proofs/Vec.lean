import Verif.Proofs.StateOps
import Verif.Proofs.Operator
import Verif.Proofs.GradientCalc
import Mathlib.Analysis.InnerProductSpace.PiL2
import Mathlib.Analysis.InnerProductSpace.Symmetric

/-! # States as vectors of a finite-dimensional inner product space -/

namespace Verif.Proofs
open Verif Verif.Spec Verif.Model
attribute [-simp] BitVec.getLsbD_eq_getElem

/-- the vectors of the states of `n` qubits -/
abbrev Vect (n : Nat) := EuclideanSpace ℂ (Fin (2 ^ n))

/-- the allocated amplitudes of a state -/
noncomputable def vec (n : Nat) (ψ : U64 → ℂ) : Vect n := WithLp.toLp 2 fun i => ψ (BitVec.ofNat 64 i.val)

/-- a state with the given amplitudes -/
noncomputable def unvec {n : Nat} (x : Vect n) : U64 → ℂ := fun j => if h : j.toNat < 2 ^ n then x ⟨j.toNat, h⟩ else 0

@[simp] theorem vec_apply (n : Nat) (ψ : U64 → ℂ) (i : Fin (2 ^ n)) : vec n ψ i = ψ (BitVec.ofNat 64 i.val) := rfl

theorem vec_unvec {n : Nat} (hn : n ≤ 63) (x : Vect n) : vec n (unvec x) = x := by
  ext i
  rw [vec_apply]
  unfold unvec
  have h := toNat_ofNat_pow hn i.isLt
  rw [dif_pos (by rw [h]; exact i.isLt)]
  exact congrArg x.ofLp (Fin.ext h)

theorem unvec_vec {n : Nat} (ψ : U64 → ℂ) {j : U64} (hj : j.toNat < 2 ^ n) : unvec (vec n ψ) j = ψ j := by
  unfold unvec
  rw [dif_pos hj, vec_apply]
  congr 1
  simp

theorem vec_congr {n : Nat} (hn : n ≤ 63) {ψ φ : U64 → ℂ} (h : ∀ j, j.toNat < 2 ^ n → ψ j = φ j) : vec n ψ = vec n φ := by
  ext i
  rw [vec_apply, vec_apply]
  exact h _ (by rw [toNat_ofNat_pow hn i.isLt]; exact i.isLt)

theorem vec_inj {n : Nat} {ψ φ : U64 → ℂ} (h : vec n ψ = vec n φ) {j : U64} (hj : j.toNat < 2 ^ n) : ψ j = φ j := by
  rw [← unvec_vec ψ hj, h, unvec_vec φ hj]

theorem vec_add (n : Nat) (ψ φ : U64 → ℂ) : vec n (fun j => ψ j + φ j) = vec n ψ + vec n φ := by ext i; simp

theorem vec_smul (n : Nat) (c : ℂ) (ψ : U64 → ℂ) : vec n (fun j => c * ψ j) = c • vec n ψ := by ext i; simp

theorem vec_zero (n : Nat) : vec n (fun _ => 0) = 0 := by ext i; simp

theorem inner_vec {n : Nat} (hn : n ≤ 63) (a b : U64 → ℂ) : Spec.inner (2 ^ n) a b = Inner.inner ℂ (vec n a) (vec n b) := by
  unfold Spec.inner
  rw [sum_indices (pow64 hn), PiLp.inner_apply, Finset.sum_range]
  apply Finset.sum_congr rfl
  intro i _
  rw [vec_apply, vec_apply, RCLike.inner_apply, mul_comm]

theorem normSq_vec {n : Nat} (hn : n ≤ 63) (a : U64 → ℂ) : normSq (2 ^ n) a = ‖vec n a‖ ^ 2 := by
  have h := inner_self (2 ^ n) a
  rw [inner_vec hn, inner_self_eq_norm_sq_to_K] at h
  have h2 : ((‖vec n a‖ ^ 2 : ℝ) : ℂ) = (normSq (2 ^ n) a : ℂ) := by rw [← h]; push_cast; rfl
  exact (Complex.ofReal_injective h2).symm

theorem vec_eq_zero {n : Nat} (hn : n ≤ 63) (a : U64 → ℂ) : vec n a = 0 ↔ normSq (2 ^ n) a = 0 := by
  rw [normSq_vec hn, sq_eq_zero_iff, norm_eq_zero]

theorem vec_onState {n : Nat} (hn : n ≤ 63) (f : (U64 → ℂ) → U64 → ℂ) (ψ : U64 → ℂ) : vec n (onState (2 ^ n) f ψ) = vec n (f ψ) :=
  vec_congr hn fun j hj => by unfold onState; rw [if_pos hj]

/-! ## sums of Pauli operators -/

theorem pauliAct_vec_add (p : PauliOp) (ψ φ : U64 → ℂ) (j : U64) : PauliAct p (fun k => ψ k + φ k) j = PauliAct p ψ j + PauliAct p φ j := by
  unfold PauliAct pauliAct; ring

theorem opAct_add (ts : List PauliOp) (ψ φ : U64 → ℂ) : OpAct ts (fun k => ψ k + φ k) = fun j => OpAct ts ψ j + OpAct ts φ j := by
  funext j
  unfold OpAct
  induction ts with
  | nil => simp
  | cons p ts ih => rw [List.map_cons, List.sum_cons, ih, pauliAct_vec_add, List.map_cons, List.map_cons, List.sum_cons, List.sum_cons]; ring

theorem opAct_smul (ts : List PauliOp) (c : ℂ) (ψ : U64 → ℂ) : OpAct ts (fun k => c * ψ k) = fun j => c * OpAct ts ψ j := by
  funext j
  unfold OpAct
  induction ts with
  | nil => simp
  | cons p ts ih =>
    rw [List.map_cons, List.sum_cons, ih, List.map_cons, List.sum_cons]
    unfold PauliAct pauliAct; ring

theorem opAct_local {n : Nat} (hn : n ≤ 63) {ts : List PauliOp} (hx : ∀ p ∈ ts, p.x.toNat < 2 ^ n) {ψ φ : U64 → ℂ}
    (h : ∀ j, j.toNat < 2 ^ n → ψ j = φ j) {j : U64} (hj : j.toNat < 2 ^ n) : OpAct ts ψ j = OpAct ts φ j := by
  unfold OpAct
  congr 1
  apply List.map_congr_left
  intro p hp
  unfold PauliAct pauliAct
  have hF := flipOK_zero (show n ≤ 64 by omega) (hx p hp)
  have : (j ^^^ p.x).toNat < 2 ^ n := by
    have := (hF.inState_xor j).2 (by rw [Nat.one_mul]; exact hj)
    rw [Nat.one_mul] at this; exact this
  rw [h _ this]

/-- the linear map of a sum of Pauli operators -/
noncomputable def opLin (n : Nat) (ts : List PauliOp) : Vect n →ₗ[ℂ] Vect n where
  toFun x := vec n (OpAct ts (unvec x))
  map_add' x y := by
    rw [← vec_add, ← opAct_add]
    congr 2
    funext j
    unfold unvec
    split
    · rfl
    · simp
  map_smul' c x := by
    rw [RingHom.id_apply, ← vec_smul, ← opAct_smul]
    congr 2
    funext j
    unfold unvec
    split
    · rfl
    · simp

theorem vec_opAct {n : Nat} (hn : n ≤ 63) {ts : List PauliOp} (hx : ∀ p ∈ ts, p.x.toNat < 2 ^ n) (ψ : U64 → ℂ) :
    vec n (OpAct ts ψ) = opLin n ts (vec n ψ) :=
  vec_congr hn fun _ hj => opAct_local hn hx (fun k hk => (unvec_vec ψ hk).symm) hj

theorem inner_pauliAct_conj {n : Nat} (hn : n ≤ 63) {p : PauliOp} (hx : p.x.toNat < 2 ^ n) (hc : p.coef.im = 0) (a b : U64 → ℂ) :
    Spec.inner (2 ^ n) a (PauliAct p b) = Spec.inner (2 ^ n) (PauliAct p a) b := by
  have h := dagger_spec p (flipOK_zero (show n ≤ 64 by omega) hx) a b
  rw [Nat.one_mul] at h
  rw [h]
  have : p.dagger = p := by
    have e : (starRingEnd ℂ) p.coef = p.coef := Complex.conj_eq_iff_im.2 hc
    unfold PauliOp.dagger; rw [e]
  rw [this]

/-- real coefficients make the operator symmetric -/
theorem opLin_symmetric {n : Nat} (hn : n ≤ 63) {ts : List PauliOp} (hx : ∀ p ∈ ts, p.x.toNat < 2 ^ n) (hc : ∀ p ∈ ts, p.coef.im = 0) :
    (opLin n ts).IsSymmetric := by
  intro x y
  rw [← vec_unvec hn x, ← vec_unvec hn y, ← vec_opAct hn hx, ← vec_opAct hn hx, ← inner_vec hn, ← inner_vec hn]
  rw [← inner_conj, inner_opAct, inner_opAct]
  induction ts with
  | nil => simp
  | cons p ts ih =>
    rw [List.map_cons, List.map_cons, List.sum_cons, List.sum_cons, map_add,
      ih (fun q hq => hx q (List.mem_cons_of_mem _ hq)) (fun q hq => hc q (List.mem_cons_of_mem _ hq)), inner_conj,
      ← inner_pauliAct_conj hn (hx p List.mem_cons_self) (hc p List.mem_cons_self)]

/-- a Pauli string keeps the norm -/
theorem normSq_pauliAct {n : Nat} (hn : n ≤ 63) {p : PauliOp} (hx : p.x.toNat < 2 ^ n) (ψ : U64 → ℂ) :
    normSq (2 ^ n) (PauliAct p ψ) = Complex.normSq p.coef * normSq (2 ^ n) ψ := by
  have hF := flipOK_zero (show n ≤ 64 by omega) hx
  unfold normSq
  have h := sum_xor hF (fun j => Complex.normSq (ψ j))
  rw [Nat.one_mul] at h
  rw [← h, Finset.mul_sum]
  apply Finset.sum_congr rfl
  intro j _
  unfold PauliAct pauliAct
  rw [Complex.normSq_mul, Complex.normSq_mul]
  have : Complex.normSq (Complex.I ^ pauliExp p.x p.z j) = 1 := by
    rw [map_zpow₀, Complex.normSq_I, one_zpow]
  rw [this, one_mul]

/-- the energy of a sum of Pauli operators is at most the sum of the absolute values of its coefficients -/
theorem opLin_bound {n : Nat} (hn : n ≤ 63) {ts : List PauliOp} (hx : ∀ p ∈ ts, p.x.toNat < 2 ^ n) (hc : ∀ p ∈ ts, p.coef.im = 0)
    (x : Vect n) : ‖opLin n ts x‖ ≤ (ts.map fun p => |p.coef.re|).sum * ‖x‖ := by
  rw [← vec_unvec hn x, ← vec_opAct hn hx]
  generalize unvec x = ψ
  induction ts with
  | nil =>
    have : OpAct [] ψ = fun _ => 0 := by funext j; simp [OpAct]
    rw [this, vec_zero]; simp
  | cons p ts ih =>
    have e : OpAct (p :: ts) ψ = fun j => PauliAct p ψ j + OpAct ts ψ j := by
      funext j; unfold OpAct; rw [List.map_cons, List.sum_cons]
    rw [e, vec_add, List.map_cons, List.sum_cons, add_mul]
    refine le_trans (norm_add_le _ _) (add_le_add (le_of_eq ?_) (ih (fun q hq => hx q (List.mem_cons_of_mem _ hq))
      (fun q hq => hc q (List.mem_cons_of_mem _ hq))))
    have h1 := normSq_pauliAct hn (hx p List.mem_cons_self) ψ
    rw [normSq_vec hn, normSq_vec hn] at h1
    have h2 : Complex.normSq p.coef = |p.coef.re| ^ 2 := by
      rw [Complex.normSq_apply, hc p List.mem_cons_self, sq_abs]; ring
    rw [h2, ← mul_pow] at h1
    exact (pow_left_inj₀ (norm_nonneg _) (mul_nonneg (abs_nonneg _) (norm_nonneg _)) (by norm_num)).1 h1

end Verif.Proofs
