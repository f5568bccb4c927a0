import Verif.Proofs.DensityUpdate
import Verif.Proofs.GateDescFacts
import Verif.Proofs.StateOps
import Verif.Proofs.PauliExpect
import Verif.Model.Density

/-! # Operations on a density matrix -/

namespace Verif.Proofs
open Verif Verif.Spec Verif.Model
open scoped ComplexConjugate
attribute [-simp] BitVec.getLsbD_eq_getElem

/-! ## kernels over all cells -/

theorem cells_run {R : Type} {dim : Nat} (hd : dim < 2 ^ 32) (body : U64 → U64 → Prog (U64 × U64) R Unit) (M M' : U64 × U64 → R)
    (hwithin : ∀ i j, (body i j).Within (· = (i, j)))
    (hin : ∀ i j, InMat dim (i, j) → M' (i, j) = (body i j).exec M (i, j))
    (hout : ∀ p, ¬ InMat dim p → M' p = M p) : Runs (InMat dim) (pairFor dim dim body).pool M M' := by
  have hN : dim * dim < 2 ^ 64 := by
    calc dim * dim < 2 ^ 32 * 2 ^ 32 := Nat.mul_lt_mul'' hd hd
      _ = 2 ^ 64 := by norm_num
  have hd' : dim < 2 ^ 64 := by omega
  have hb : ∀ g : Fin (pairFor dim dim body).N, g.val / dim < dim ∧ g.val % dim < dim := fun g => pair_div hN g
  have hv : ∀ k, k < dim → (BitVec.ofNat 64 k).toNat = k := fun k hk => Verif.toNat_ofNat_lt (by omega)
  have hcell : ∀ g : Fin (pairFor dim dim body).N, InMat dim (BitVec.ofNat 64 (g.val / dim), BitVec.ofNat 64 (g.val % dim)) := by
    intro g
    refine ⟨?_, ?_⟩
    · show (BitVec.ofNat 64 _).toNat < _; rw [hv _ (hb g).1]; exact (hb g).1
    · show (BitVec.ofNat 64 _).toNat < _; rw [hv _ (hb g).2]; exact (hb g).2
  apply runs_of_disjoint _ _ _ _ (fun g p => p = (BitVec.ofNat 64 (g.val / dim), BitVec.ofNat 64 (g.val % dim)))
  · rintro g g' p rfl h
    have h1 := congrArg BitVec.toNat (Prod.ext_iff.1 h).1
    have h2 := congrArg BitVec.toNat (Prod.ext_iff.1 h).2
    dsimp only at h1 h2
    rw [hv _ (hb g).1, hv _ (hb g').1] at h1
    rw [hv _ (hb g).2, hv _ (hb g').2] at h2
    exact Fin.ext (div_mod_inj h1 h2)
  · rintro g p rfl; exact hcell g
  · intro g
    rw [pairFor_item hN hd']
    exact hwithin _ _
  · rintro g p rfl
    rw [pairFor_item hN hd']
    exact hin _ _ (hcell g)
  · intro p hp
    apply hout
    rintro ⟨h1, h2⟩
    obtain ⟨g, e1, e2⟩ := pair_surj hN h1 h2
    refine hp g ?_
    rw [e1, e2]
    exact Prod.ext (by simp) (by simp)

theorem fillM_runs {n : Nat} (hn : n < 32) (f : U64 × U64 → ℂ) (M : U64 × U64 → ℂ) :
    MRuns (2 ^ n) [fillM (2 ^ n) f] M (fun p => if p.1.toNat < 2 ^ n ∧ p.2.toNat < 2 ^ n then f p else M p) := by
  refine ⟨_, cells_run (Nat.pow_lt_pow_right (by norm_num) hn) _ M _ ?_ ?_ ?_, rfl⟩
  · intro i j; exact ⟨rfl, trivial⟩
  · intro i j h
    show (if _ then _ else _) = Function.update M (i, j) (f (i, j)) (i, j)
    rw [if_pos ⟨h.1, h.2⟩, Function.update_self]
  · intro p hp
    exact if_neg fun h => hp ⟨h.1, h.2⟩

theorem elementwiseM_runs {n : Nat} (hn : n < 32) (f : U64 × U64 → ℂ → ℂ) (M : U64 × U64 → ℂ) :
    MRuns (2 ^ n) [elementwiseM (2 ^ n) f] M (fun p => if p.1.toNat < 2 ^ n ∧ p.2.toNat < 2 ^ n then f p (M p) else M p) := by
  refine ⟨_, cells_run (Nat.pow_lt_pow_right (by norm_num) hn) _ M _ ?_ ?_ ?_, rfl⟩
  · intro i j; exact ⟨rfl, fun _ => ⟨rfl, trivial⟩⟩
  · intro i j h
    show (if _ then _ else _) = Function.update M (i, j) (f (i, j) (M (i, j))) (i, j)
    rw [if_pos ⟨h.1, h.2⟩, Function.update_self]
  · intro p hp
    exact if_neg fun h => hp ⟨h.1, h.2⟩

theorem pokeM_runs {dim : Nat} {p : U64 × U64} (hp : InMat dim p) (z : ℂ) (M : U64 × U64 → ℂ) :
    Runs (InMat dim) (pokeM p z).pool M (Function.update M p z) := by
  apply runs_of_disjoint _ _ _ _ (fun _ a => a = p)
  · intro i j _ _ _; exact Subsingleton.elim (α := Fin 1) i j
  · rintro _ a rfl; exact hp
  · intro _; exact ⟨rfl, trivial⟩
  · rintro _ a rfl; rfl
  · intro a ha
    exact Function.update_of_ne (ha (⟨0, Nat.one_pos⟩ : Fin 1)) _ _

/-! ## the matrix of an operator -/

section
variable {n : Nat} {ts : List Nat} {cs : List (Nat × Bool)}

/-- column `r` of the operator -/
noncomputable def colOf (F : (U64 → ℂ) → U64 → ℂ) (i r : U64) : ℂ := F (fun k => if k = r then 1 else 0) i

theorem applyMat_sumState (U : Nat → Nat → ℂ) {ι : Type} (s : Finset ι) (f : ι → U64 → ℂ) (j : U64) :
    applyMat ts U cs (fun k => ∑ r ∈ s, f r k) j = ∑ r ∈ s, applyMat ts U cs (f r) j := by
  unfold applyMat
  split
  · simp only [Finset.mul_sum]
    rw [Finset.sum_comm]
  · rfl

theorem applyMat_col (hn : n < 64) (h64 : ∀ q ∈ ts, q < 64) (ht : ∀ q ∈ ts, q < n) (U : Nat → Nat → ℂ) (φ : U64 → ℂ) {i : U64}
    (hi : i.toNat < 2 ^ n) : applyMat ts U cs φ i = ∑ r ∈ indices (2 ^ n), colOf (applyMat ts U cs) i r * φ r := by
  have hd : 2 ^ n ≤ 2 ^ 64 := Nat.pow_le_pow_right (by norm_num) hn.le
  have e : applyMat ts U cs φ i = applyMat ts U cs (fun k => ∑ r ∈ indices (2 ^ n), φ r * (if k = r then 1 else 0)) i := by
    refine applyMat_local (B := 1) (n := n) h64 ht U _ _ (fun j hj => ?_) i (by rwa [Nat.one_mul])
    rw [Nat.one_mul] at hj
    simp only [mul_ite, mul_one, mul_zero]
    rw [Finset.sum_ite_eq, if_pos ((mem_indices hd).2 hj)]
  rw [e, applyMat_sumState]
  refine Finset.sum_congr rfl fun r _ => ?_
  rw [applyMat_smul, mul_comm]
  rfl

theorem onMatrix_col (hn : n < 64) (h64 : ∀ q ∈ ts, q < 64) (ht : ∀ q ∈ ts, q < n) (U : Nat → Nat → ℂ) (ρ : U64 × U64 → ℂ)
    {i j : U64} (hi : i.toNat < 2 ^ n) (hj : j.toNat < 2 ^ n) :
    onMatrix (2 ^ n) (applyMat ts U cs) ρ (i, j) = ∑ c ∈ indices (2 ^ n), ∑ r ∈ indices (2 ^ n),
      colOf (applyMat ts U cs) i r * ρ (r, c) * conj (colOf (applyMat ts U cs) j c) := by
  unfold onMatrix
  rw [if_pos ⟨hi, hj⟩, applyMat_col hn h64 ht U _ hj, map_sum]
  refine Finset.sum_congr rfl fun c _ => ?_
  rw [map_mul, Complex.conj_conj, applyMat_col hn h64 ht U _ hi, Finset.mul_sum]
  refine Finset.sum_congr rfl fun r _ => ?_
  ring

theorem onMatrix_hermitian (hn : n < 64) (h64 : ∀ q ∈ ts, q < 64) (ht : ∀ q ∈ ts, q < n) (U : Nat → Nat → ℂ) {ρ : U64 × U64 → ℂ}
    (h : HermitianOn (2 ^ n) ρ) : HermitianOn (2 ^ n) (onMatrix (2 ^ n) (applyMat ts U cs) ρ) := by
  have hd : 2 ^ n ≤ 2 ^ 64 := Nat.pow_le_pow_right (by norm_num) hn.le
  intro i j hi hj
  rw [onMatrix_col hn h64 ht U ρ hi hj, onMatrix_col hn h64 ht U ρ hj hi, map_sum, Finset.sum_comm]
  refine Finset.sum_congr rfl fun r hr => ?_
  rw [map_sum]
  refine Finset.sum_congr rfl fun c hc => ?_
  rw [map_mul, map_mul, Complex.conj_conj, h r c ((mem_indices hd).1 hr) ((mem_indices hd).1 hc)]
  ring

theorem traceOf_indices (hn : n < 64) (ρ : U64 × U64 → ℂ) : traceOf (2 ^ n) ρ = ∑ i ∈ indices (2 ^ n), ρ (i, i) :=
  (sum_indices (Nat.pow_le_pow_right (by norm_num) hn.le) fun i => ρ (i, i)).symm

theorem col_orthonormal (hn : n < 64) (h : TargetsOK ts) (hd : CtrlDisj cs ts) (ht : ∀ q ∈ ts, q < n) {U : Nat → Nat → ℂ}
    (hU : ∀ r s, r < 2 ^ ts.length → s < 2 ^ ts.length → matMul ts.length (matDag U) U r s = matOne r s) {r c : U64}
    (hc : c.toNat < 2 ^ n) :
    ∑ i ∈ indices (2 ^ n), conj (colOf (applyMat ts U cs) i c) * colOf (applyMat ts U cs) i r = if c = r then 1 else 0 := by
  have hB : 1 * 2 ^ n ≤ 2 ^ 64 := by rw [Nat.one_mul]; exact Nat.pow_le_pow_right (by norm_num) hn.le
  have := inner_applyMat (n := n) (B := 1) hB h hd ht U (applyMat ts U cs (fun k => if k = c then 1 else 0)) (fun k => if k = r then 1 else 0)
  rw [applyMat_inverse h hd hU, Nat.one_mul] at this
  rw [Nat.one_mul] at hB
  refine Eq.trans this ?_
  unfold inner
  rw [Finset.sum_eq_single c]
  · simp
  · intro b _ hb; simp [hb]
  · intro hb; exact (hb ((mem_indices hB).2 hc)).elim

theorem onMatrix_trace (hn : n < 64) (h : TargetsOK ts) (hd : CtrlDisj cs ts) (ht : ∀ q ∈ ts, q < n) {U : Nat → Nat → ℂ}
    (hU : ∀ r s, r < 2 ^ ts.length → s < 2 ^ ts.length → matMul ts.length (matDag U) U r s = matOne r s) (ρ : U64 × U64 → ℂ) :
    traceOf (2 ^ n) (onMatrix (2 ^ n) (applyMat ts U cs) ρ) = traceOf (2 ^ n) ρ := by
  have hB : 2 ^ n ≤ 2 ^ 64 := Nat.pow_le_pow_right (by norm_num) hn.le
  rw [traceOf_indices hn, traceOf_indices hn]
  rw [Finset.sum_congr rfl fun i hi => onMatrix_col hn h.lt ht U ρ ((mem_indices hB).1 hi) ((mem_indices hB).1 hi)]
  rw [Finset.sum_comm]
  refine Finset.sum_congr rfl fun c hc => ?_
  rw [Finset.sum_comm]
  rw [Finset.sum_congr rfl fun r (_ : r ∈ indices (2 ^ n)) => show ∑ i ∈ indices (2 ^ n), colOf (applyMat ts U cs) i r * ρ (r, c) * conj (colOf (applyMat ts U cs) i c)
    = ρ (r, c) * (if c = r then 1 else 0) from ?_]
  · simp only [mul_ite, mul_one, mul_zero]
    rw [Finset.sum_ite_eq, if_pos hc]
  · rw [← col_orthonormal hn h hd ht hU ((mem_indices hB).1 hc), Finset.mul_sum]
    refine Finset.sum_congr rfl fun i _ => ?_
    ring

/-- on a projector the operator acts as on the vector -/
theorem onMatrix_projector (U : Nat → Nat → ℂ) (ψ : U64 → ℂ) {p : U64 × U64} (hp : p.1.toNat < 2 ^ n ∧ p.2.toNat < 2 ^ n) :
    onMatrix (2 ^ n) (applyMat ts U cs) (projector ψ) p = projector (onState (2 ^ n) (applyMat ts U cs) ψ) p := by
  unfold onMatrix projector onState
  rw [if_pos hp, if_pos hp.1, if_pos hp.2]
  dsimp only
  have h1 : ∀ c, applyMat ts U cs (fun r => ψ r * conj (ψ c)) p.1 = conj (ψ c) * applyMat ts U cs ψ p.1 := by
    intro c
    have := congrFun (applyMat_smul (ts := ts) (cs := cs) U (conj (ψ c)) ψ) p.1
    rw [← this]
    congr 1
    funext r; ring
  have h2 : (fun c => conj (applyMat ts U cs (fun r => ψ r * conj (ψ c)) p.1)) = fun c => conj (applyMat ts U cs ψ p.1) * ψ c := by
    funext c
    rw [h1, map_mul, Complex.conj_conj]; ring
  rw [h2, applyMat_smul, map_mul, Complex.conj_conj]
end

end Verif.Proofs
