import Verif.Proofs.FloatCircuit

/-! # Every gate has one outcome in any arithmetic -/

namespace Verif.Proofs
open Verif Verif.Spec Verif.Model
attribute [-simp] BitVec.getLsbD_eq_getElem

section
variable {F : Type} [_root_.Zero F] [One F] [Add F] [Sub F] [Mul F] [Neg F] (lib : FloatLib F)

theorem applyPauliF_total {B n : Nat} {c v x z : U64} (h : FlipOK B n c v x) (co : Cx F) (m : U64 → Cx F) :
    ∃ m', DRuns (B * 2 ^ n) (applyPauliF c v x z co (B * 2 ^ n)) m m' := by
  unfold applyPauliF
  split
  · rename_i hx; subst hx; exact ⟨_, pauliDiag_any h.masks0 z co m⟩
  · rename_i hx; exact ⟨_, pauliFlip_any h hx z _ co m⟩

theorem applyPauliRotationF_total {B n : Nat} {c v x z : U64} (h : FlipOK B n c v x) (co : Cx F) (a : F) (m : U64 → Cx F) :
    ∃ m', DRuns (B * 2 ^ n) (applyPauliRotationF lib c v x z co a (B * 2 ^ n)) m m' := by
  unfold applyPauliRotationF
  dsimp only
  split
  · rename_i hx; subst hx; exact ⟨_, pauliRotDiag_any h.masks0 z _ _ m⟩
  · rename_i hx; exact ⟨_, pauliRotFlip_any h hx _ _ z _ _ m⟩

theorem gate1F_total {B n q L : Nat} {o : Operands} (hL : LanesOK L) (h : MasksOK B n o.t o.c o.v) (hq : IsBit o.t q) (k : Gate1)
    (m : U64 → Cx F) : ∃ m', DRuns (B * 2 ^ n) (gate1KernelF lib L n o (B * 2 ^ n) k : Device (Cx F)) m m' := by
  cases k
  case X => exact ⟨_, xGate_any h hq m⟩
  case Y => exact ⟨_, yGate_any h hq _ _ m⟩
  case Z | S | Sdag | T | Tdag | U1 => exact ⟨_, phaseGate_any h hq _ m⟩
  case RZ => exact ⟨_, diagGate_any h hq _ _ m⟩
  all_goals exact ⟨_, dense1_any hL h hq _ m⟩

/-- whatever the arithmetic does, a valid gate has an outcome, the same under every schedule -/
theorem updateF_total {g : UGate} (hv : Valid g) {L B n : Nat} (hL : LanesOK L) (hn : n < 64) (hsize : B * 2 ^ n ≤ 2 ^ 64)
    (ht : ∀ q ∈ UGate.ts g, q < n) (hc : ∀ p ∈ UGate.cs g, p.1 < n) :
    ∃ d : Device (Cx F), g.updateF lib L B n = .ok d ∧ ∀ m, ∃ m', DRuns (B * 2 ^ n) d m m' := by
  have hck : OperandsOK g.operands → checkWithinBounds g.operands n = .ok () := by
    intro ho
    rw [checkWithinBounds_self ho hn]
    rintro x (hx | hx)
    · exact ht x hx
    · obtain ⟨b, hb⟩ := mem_controls.2 hx
      exact hc _ hb
  have upd : ∀ {R : Type} {o : Operands} (d : Device R), checkWithinBounds o n = .ok () →
      (checkWithinBounds o n >>= fun _ => (pure d : Res (Device R))) = .ok d := by
    intro R o d h; rw [h, ok_bind]; rfl
  cases g with
  | ident => exact ⟨_, rfl, fun m => ⟨m, rfl⟩⟩
  | globalPhase phase o =>
    obtain ⟨ho, h0⟩ := hv
    have hm := (ctx_of (mkOperands_self ho) (hck ho) hsize).masks
    rw [h0] at hm
    exact ⟨_, upd _ (hck ho), fun m => ⟨_, zeroTarget_any hL hm _ m⟩⟩
  | one k o =>
    obtain ⟨ho, q, hq⟩ := hv
    have hmk := mkOperands_self ho
    rw [hq] at hmk
    exact ⟨_, upd _ (hck ho), gate1F_total lib hL (ctx_of hmk (hck ho) hsize).masks (isBit_of hmk) k⟩
  | swap o =>
    obtain ⟨ho, a, b, hab⟩ := hv
    have hmk := mkOperands_self ho
    rw [hab] at hmk
    have ctx := ctx_of hmk (hck ho) hsize
    refine ⟨_, upd _ (hck ho), fun m => ⟨_, swapGate_any hmk ?_ hsize m⟩⟩
    rintro q (h | h)
    · exact ctx.tlt q h
    · exact ctx.clt q h
  | ecr g =>
    obtain ⟨ho, a, b, hne, ha, hb, hgt⟩ := hv
    have hm := (ctx_of (mkOperands_self ho) (hck ho) hsize).masks
    rw [hgt] at hm
    exact ⟨_, upd _ (hck ho), fun m => ⟨_, ecrGate_any hm ha hb hne _ _ _ m⟩⟩
  | perm g =>
    obtain ⟨hk, hg⟩ := hv
    obtain ⟨hp, -, hs, hw, hmk⟩ := permCtor_spec hk hg
    have ho : OperandsOK g.o := operandsOK_of hmk
    obtain ⟨d, hd⟩ : ∃ d, permUpdate B n g = .ok d := ⟨_, upd_ok (hck ho) _⟩
    have hkn := (perm_update hk hg hsize hd (fun _ => 0)).1
    exact ⟨_, upd _ (hck ho), fun m => ⟨_, permKernel_spec hsize (by omega) hkn hs m⟩⟩
  | dense g =>
    obtain ⟨ho, hr, hcol⟩ := hv
    have hmk := mkOperands_self ho
    have ctx := ctx_of hmk (hck ho) hsize
    have hlen := length_maskToVector g.o.t
    show ∃ d : Device (Cx F), denseUpdateF lib L B n g.mat g.o = .ok d ∧ _
    unfold denseUpdateF
    rw [show checkWithinBounds g.o n = _ from hck ho, ok_bind]
    dsimp only
    split_ifs with h1 h2 h3 h4
    · refine ⟨_, rfl, fun m => ⟨_, zeroTarget_any hL ?_ _ m⟩⟩
      have hl : (maskToVector g.o.t).length = 0 := Nat.pow_right_injective (le_refl 2) (by simp only; omega)
      have hnil := List.length_eq_zero_iff.1 hl
      have ht0 : g.o.t = 0 := by
        apply U64.ext; intro i _
        have : i ∉ maskToVector g.o.t := by rw [hnil]; simp
        rw [mem_maskToVector] at this
        simpa using this
      exact ht0 ▸ ctx.masks
    · have hl : (maskToVector g.o.t).length = 1 := Nat.pow_right_injective (le_refl 2) (by simp only; omega)
      obtain ⟨q, hq⟩ := List.length_eq_one_iff.1 hl
      rw [hq] at hmk
      exact ⟨_, rfl, fun m => ⟨_, dense1_any hL ctx.masks (isBit_of hmk) _ m⟩⟩
    · have hl : (maskToVector g.o.t).length = 2 := Nat.pow_right_injective (le_refl 2) (by simp only; omega)
      obtain ⟨q0, q1, hq⟩ := List.length_eq_two.1 hl
      have hlt : q0 < q1 := by
        have := maskToVector_sorted g.o.t
        rw [hq] at this
        simpa using this
      have h64 : q1 < 64 := by
        have := ctx.tlt q1 (by rw [hq]; simp)
        omega
      refine ⟨_, rfl, fun m => ⟨_, dense2_any ctx.masks hlt h64 ?_ _ m⟩⟩
      intro i
      have := mem_maskToVector (m := g.o.t) (i := i)
      rw [hq] at this
      simp only [List.mem_cons, List.not_mem_nil, or_false] at this
      rw [Bool.eq_iff_iff]
      simp [this]
    · refine ⟨_, rfl, fun m => ?_⟩
      unfold multiDense
      have hp : 2 ^ popcount g.o.t = 2 ^ (sortQ (maskToVector g.o.t)).length := by rw [popcount_maskOf ctx.maskOf]
      generalize 2 ^ popcount g.o.t = N at hp
      subst hp
      refine ⟨_, rows_any ctx.masks ctx.hn ctx.maskOf (fun q hq => ctx.tlt q (mem_sortQ.1 hq)) _ ?_ m⟩
      intro r p hp
      rw [List.mem_map] at hp
      obtain ⟨s, hs, rfl⟩ := hp
      simpa using hs
    · rw [length_maskToVector] at hr hcol
      exact absurd ⟨hr.ge, hcol.ge⟩ h4
  | sparse g =>
    obtain ⟨ho, m, hm, hgm⟩ := hv
    have hmk := mkOperands_self ho
    have ctx := ctx_of hmk (hck ho) hsize
    show ∃ d : Device (Cx F), (checkWithinBounds g.o n >>= fun _ => sparseKernel n g.o.t g.o.c g.o.v
      { g.mat with vals := g.mat.vals.map (castC lib) } (B * 2 ^ n)) = .ok d ∧ _
    rw [show checkWithinBounds g.o n = _ from hck ho, ok_bind, hgm, csr_convert]
    unfold sparseKernel
    rw [csr_rows, ok_bind]
    refine ⟨_, rfl, fun ψ => ?_⟩
    have hm' := convert_ok (castC lib : ℂ → Cx F) hm
    have hN : ((SMat.convert (castC lib : ℂ → Cx F) m).stored.map fun row => row.map fun p => (p.2, p.1)).length =
        2 ^ (sortQ (maskToVector g.o.t)).length := by
      rw [List.length_map, hm'.rows, length_sortQ]
    have hcols : ∀ (r : Fin ((SMat.convert (castC lib : ℂ → Cx F) m).stored.map fun row => row.map fun p => (p.2, p.1)).length),
        ∀ p ∈ ((SMat.convert (castC lib : ℂ → Cx F) m).stored.map fun row => row.map fun p => (p.2, p.1))[r.val],
          p.2 < 2 ^ (sortQ (maskToVector g.o.t)).length := by
      intro r p hp
      simp only [List.getElem_map, List.mem_map] at hp
      obtain ⟨q, hq, rfl⟩ := hp
      rw [length_sortQ]
      exact (hm'.inner _ (List.getElem_mem _)).1 q hq
    generalize hrows : (fun r : Fin ((SMat.convert (castC lib : ℂ → Cx F) m).stored.map fun row => row.map fun p => (p.2, p.1)).length =>
      ((SMat.convert (castC lib : ℂ → Cx F) m).stored.map fun row => row.map fun p => (p.2, p.1))[r.val]) = rows
    have hcols' : ∀ r, ∀ p ∈ rows r, p.2 < 2 ^ (sortQ (maskToVector g.o.t)).length := by
      subst hrows; exact hcols
    clear hrows hcols
    generalize ((SMat.convert (castC lib : ℂ → Cx F) m).stored.map fun row => row.map fun p => (p.2, p.1)).length = N at *
    subst hN
    exact ⟨_, rows_any ctx.masks ctx.hn ctx.maskOf (fun q hq => ctx.tlt q (mem_sortQ.1 hq)) rows hcols' ψ⟩
  | pauli g =>
    obtain ⟨ho, hgt⟩ := hv
    have hmk := mkOperands_self ho
    rw [hgt] at hmk
    have hf := pauli_flipOK (B := B) (n := n) hmk (by
      rintro q (hq | hq)
      · exact ht q (by rw [show UGate.ts (.pauli g) = maskToVector g.o.t from rfl, hgt]; exact hq)
      · obtain ⟨b, hb⟩ := mem_controls.2 hq
        exact hc _ hb) hsize
    exact ⟨_, rfl, applyPauliF_total hf _⟩
  | pauliRot g a =>
    obtain ⟨ho, hgt⟩ := hv
    have hmk := mkOperands_self ho
    rw [hgt] at hmk
    have hf := pauli_flipOK (B := B) (n := n) hmk (by
      rintro q (hq | hq)
      · exact ht q (by rw [show UGate.ts (.pauliRot g a) = maskToVector g.o.t from rfl, hgt]; exact hq)
      · obtain ⟨b, hb⟩ := mem_controls.2 hq
        exact hc _ hb) hsize
    exact ⟨_, rfl, applyPauliRotationF_total lib hf _ _⟩

end

end Verif.Proofs
