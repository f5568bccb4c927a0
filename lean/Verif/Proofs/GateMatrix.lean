import Verif.Proofs.GateBuild

/-! # `get_matrix()` of a valid gate object is the matrix of its operator -/

namespace Verif.Proofs
open Verif Verif.Spec Verif.Model
attribute [-simp] BitVec.getLsbD_eq_getElem

theorem entries_two {U V : Nat → Nat → ℂ} (h : U 0 0 = V 0 0 ∧ U 0 1 = V 0 1 ∧ U 1 0 = V 1 0 ∧ U 1 1 = V 1 1)
    {r s : Nat} (hr : r < 2) (hs : s < 2) : U r s = V r s := by
  obtain ⟨h1, h2, h3, h4⟩ := h
  interval_cases r <;> interval_cases s <;> assumption

theorem swapGetMatrix_eq {r s : Nat} (hr : r < 4) (hs : s < 4) : swapGetMatrix.entry r s = swapMat r s := by
  interval_cases r <;> interval_cases s <;> simp [swapGetMatrix, swapMat, fill4, Fin.ofNat]

theorem ecrGetMatrix_eq {g : EcrGate} (hne : g.pc.toNat ≠ g.pt.toNat) {r s : Nat} (hr : r < 4) (hs : s < 4) :
    (ecrGetMatrix g).entry r s = matOf (.ecr g) r s := by
  have hI : (⟨0, 1⟩ : ℂ) = Complex.I := rfl
  have hmI : (⟨0, -1⟩ : ℂ) = -Complex.I := by apply Complex.ext <;> simp
  simp only [ecrGetMatrix, matOf, hI, hmI]
  rcases Nat.lt_or_gt_of_ne hne with h | h
  · rw [if_pos (show g.pt.toNat > g.pc.toNat from h), if_pos h]
    interval_cases r <;> interval_cases s <;>
      simp [fill4, ecrMat, pauliX, pauliY, mat2, Fin.ofNat] <;> ring
  · rw [if_neg (show ¬ g.pt.toNat > g.pc.toNat by omega), if_pos (show g.pt.toNat < g.pc.toNat from h),
      if_neg (show ¬ g.pc.toNat < g.pt.toNat by omega)]
    interval_cases r <;> interval_cases s <;>
      simp [fill4, ecrMat, pauliX, pauliY, mat2, Fin.ofNat, flip2] <;> ring

/-- the size for which `1 << n_targets` is defined -/
def TargetsFit (g : UGate) : Prop := (UGate.ts g).length < 64

theorem getMatrix_valid {g : UGate} (hv : Valid g) (hf : TargetsFit g) :
    ∃ M, g.getMatrix = .ok M ∧ M.rows = 2 ^ (UGate.ts g).length ∧ M.cols = 2 ^ (UGate.ts g).length ∧
      ∀ r s, r < 2 ^ (UGate.ts g).length → s < 2 ^ (UGate.ts g).length → M.entry r s = matOf g r s := by
  cases g with
  | ident =>
    have : UGate.ts .ident = [] := maskToVector_zero
    rw [this]
    exact ⟨_, rfl, rfl, rfl, fun r s hr hs => rfl⟩
  | globalPhase phase o =>
    have : UGate.ts (.globalPhase phase o) = [] := by
      show maskToVector o.t = []
      rw [hv.2, maskToVector_zero]
    rw [this]
    refine ⟨_, rfl, rfl, rfl, fun r s hr hs => ?_⟩
    obtain rfl : r = 0 := by simpa using hr
    obtain rfl : s = 0 := by simpa using hs
    simp [matOf, expI_eq]
  | one k o =>
    obtain ⟨ho, q, hq⟩ := hv
    rw [show UGate.ts (.one k o) = [q] from hq]
    refine ⟨_, rfl, rfl, rfl, fun r s hr hs => ?_⟩
    obtain ⟨e1, e2, e3, e4⟩ := gate1GetMatrix_entries k
    exact entries_two ⟨e1.symm, e2.symm, e3.symm, e4.symm⟩ hr hs
  | swap o =>
    obtain ⟨ho, a, b, hab⟩ := hv
    rw [show UGate.ts (.swap o) = [a, b] from hab]
    exact ⟨_, rfl, rfl, rfl, fun r s hr hs => swapGetMatrix_eq hr hs⟩
  | ecr g =>
    obtain ⟨ho, a, b, hne, ha, hb, hgt⟩ := hv
    have ema : g.pc = 1#64 <<< a := U64.ext fun i _ => by rw [ha.2, getLsbD_one_shl ha.1]
    have emb : g.pt = 1#64 <<< b := U64.ext fun i _ => by rw [hb.2, getLsbD_one_shl hb.1]
    have hne' : g.pc.toNat ≠ g.pt.toNat := by
      rw [ema, emb, toNat_one_shl ha.1, toNat_one_shl hb.1]
      exact fun h => hne (Nat.pow_right_injective (le_refl 2) h)
    have hl : (UGate.ts (.ecr g)).length = 2 := by
      show (maskToVector g.o.t).length = 2
      rw [maskToVector_eq (ts := [a, b]) (by simp [hne]) (by
        intro i; rw [hgt, BitVec.getLsbD_or, ha.2, hb.2]; simp [Bool.or_comm]), length_sortQ]
      rfl
    rw [hl]
    refine ⟨_, rfl, ?_, ?_, fun r s hr hs => ecrGetMatrix_eq hne' hr hs⟩
    · simp only [ecrGetMatrix]; split_ifs <;> rfl
    · simp only [ecrGetMatrix]; split_ifs <;> rfl
  | perm g =>
    obtain ⟨hk, hg⟩ := hv
    obtain ⟨h1, -, -⟩ := perm_targets hk hg
    rw [show UGate.ts (.perm g) = _ from h1, List.length_range]
    exact ⟨_, rfl, rfl, rfl, fun r s hr hs => permGetMatrix_eq (permCtor_spec hk hg).1 hr⟩
  | dense g =>
    obtain ⟨ho, hr, hc⟩ := hv
    exact ⟨_, rfl, hr, hc, fun _ _ _ _ => rfl⟩
  | sparse g =>
    obtain ⟨ho, m, hm, hgm⟩ := hv
    obtain ⟨M, h1, h2, h3, h4⟩ := csr_toExternal hm
    rw [← hgm] at h1
    refine ⟨M, h1, h2, h3, fun r s hr hs => ?_⟩
    rw [matOf_sparse hm hgm hr hs]
    exact h4 r s hr hs
  | pauli g =>
    obtain ⟨ho, hgt⟩ := hv
    have hts : UGate.ts (.pauli g) = g.p.targetList := by
      show maskToVector g.o.t = _
      rw [hgt]; rfl
    unfold TargetsFit at hf
    rw [hts] at hf ⊢
    have hf' : popcount (g.p.x ||| g.p.z) < 64 := by
      rw [← length_maskToVector]; exact hf
    obtain ⟨M, h1, h2, h3, h4⟩ := getMatrix_spec g.p hf'
    refine ⟨M, h1, h2, h3, fun r s hr hs => ?_⟩
    refine applyMat_injective (ts := g.p.targetList) (targetsOK_maskToVector _) ?_ hr hs
    intro ψ
    rw [h4]
    exact (applyMat_pauliCoef g.p g.p.coef [] ψ).symm
  | pauliRot g angle =>
    obtain ⟨ho, hgt⟩ := hv
    have hts : UGate.ts (.pauliRot g angle) = g.p.targetList := by
      show maskToVector g.o.t = _
      rw [hgt]; rfl
    unfold TargetsFit at hf
    rw [hts] at hf ⊢
    have hf' : popcount (g.p.x ||| g.p.z) < 64 := by
      rw [← length_maskToVector]; exact hf
    obtain ⟨M, h1, h2, h3, h4⟩ := getMatrixIgnoringCoef_spec g.p hf'
    refine ⟨⟨M.rows, M.cols, fun r s => Complex.cos (-(angle * g.p.coef / 2)) * (if r = s then 1 else 0) +
      imagUnit * Complex.sin (-(angle * g.p.coef / 2)) * M.entry r s⟩, ?_, h2, h3, fun r s hr hs => ?_⟩
    · show pauliRotGetMatrix g angle = _
      unfold pauliRotGetMatrix
      rw [h1]; rfl
    · have e : M.entry r s = pauliMat g.p r s := by
        refine applyMat_injective (ts := g.p.targetList) (targetsOK_maskToVector _) ?_ hr hs
        intro ψ
        rw [h4]
        have := applyMat_pauliCoef g.p 1 [] ψ
        simp only [one_mul] at this
        exact this.symm
      simp only [matOf, e, matOne, Complex.cos_neg, Complex.sin_neg]
      rw [show imagUnit = Complex.I from rfl]
      ring

end Verif.Proofs
