import Verif.Proofs.MergeDense

/-! # `merge_gate`: one-qubit gates, global phases and swaps -/

namespace Verif.Proofs
open Verif Verif.Spec Verif.Model
attribute [-simp] BitVec.getLsbD_eq_getElem

/-- how far a gate that is diagonal with unit phases is an `RZ` gate -/
noncomputable def rzAngle : Gate1 → Option ℝ
  | .RZ θ => some θ
  | .U1 _ | .Z | .S | .Sdag | .T | .Tdag => some 0
  | _ => none

/-- the only pairs for which a phase gets lost: z-rotations with the same operands whose `RZ` angles have a tiny sum -/
def Tiny (g1 g2 : UGate) (δ : ℝ) : Prop :=
  ∃ k1 k2 o a b, g1 = .one k1 o ∧ g2 = .one k2 o ∧ rzAngle k1 = some a ∧ rzAngle k2 = some b ∧ δ = -(a + b) / 2

/-- what a special case answers -/
def StageOK (s : Stage) (g1 g2 : UGate) : Prop :=
  s = .ok none ∨ ∃ g φ δ, s = .ok (some (g, φ)) ∧ Merges g1 g2 g φ δ ∧ |δ| < 1e-12 ∧
    (δ ≠ 0 → Tiny g1 g2 δ)

theorem StageOK.exact {s : Stage} {g1 g2 g : UGate} {φ : ℝ} (hs : s = .ok (some (g, φ))) (h : Merges g1 g2 g φ 0) : StageOK s g1 g2 :=
  .inr ⟨g, φ, 0, hs, h, by norm_num, fun h => absurd rfl h⟩

theorem mask_inj {a b : U64} (h : maskToVector a = maskToVector b) : a = b := by
  have := vectorToMask_maskToVector a
  rw [h, vectorToMask_maskToVector b] at this
  cases this; rfl

theorem uses_ident (q : Nat) : ¬ UGate.uses .ident q := by
  unfold UGate.uses UGate.operands
  simp

theorem opOf_ident (ψ : U64 → ℂ) : opOf .ident ψ = ψ := by
  have h1 : UGate.ts .ident = [] := by unfold UGate.ts UGate.operands; exact maskToVector_zero
  unfold opOf
  rw [h1]
  exact applyMat_one_id ⟨List.nodup_nil, by simp⟩ ψ

/-- the gate rebuilt on the operands of another one -/
theorem rebuild_one {o : Operands} {q : Nat} (ho : OperandsOK o) (hq : maskToVector o.t = [q]) (k k1 : Gate1) :
    (GateDesc.one k q (UGate.one k1 o).controlQubitList (UGate.one k1 o).controlValueList).build = .ok (.one k o) := by
  have := mkOperands_self ho
  rw [hq] at this
  unfold GateDesc.build UGate.controlQubitList UGate.controlValueList UGate.operands
  dsimp only
  rw [this]
  rfl

theorem one_pair {o : Operands} {q : Nat} (ho : OperandsOK o) (hq : maskToVector o.t = [q]) {k1 k2 k3 : Gate1} {z : ℂ}
    (hm : ∀ r s, r < 2 → s < 2 → matMul 1 (gate1Mat k2) (gate1Mat k1) r s = z * gate1Mat k3 r s) (ψ : U64 → ℂ) (j : U64) :
    opOf (.one k2 o) (opOf (.one k1 o) ψ) j =
      if CtrlOK (controls o) j then z * opOf (.one k3 o) ψ j else opOf (.one k3 o) ψ j := by
  have hv : ∀ k, Valid (.one k o) := fun k => ⟨ho, q, hq⟩
  have ht : ∀ k, UGate.ts (.one k o) = [q] := fun k => hq
  unfold opOf
  rw [ht, ht, ht]
  have hT := valid_targetsOK (.one k1 o)
  have hD := valid_ctrlDisj (hv k1)
  rw [ht] at hT hD
  have hcs : ∀ k, UGate.cs (.one k o) = controls o := fun k => rfl
  rw [hcs, hcs, hcs] at *
  rw [applyMat_comp hT hD]
  have : applyMat [q] (matMul [q].length (matOf (.one k2 o)) (matOf (.one k1 o))) (controls o) =
      applyMat [q] (fun r s => z * gate1Mat k3 r s) (controls o) := by
    apply applyMat_congr
    intro r s hr hs
    exact hm r s hr hs
  rw [this, applyMat_ctrl]
  rw [applyMat_ctrl (matOf _)]
  split
  · rw [applyMat_scale]; rfl
  · rfl

theorem one_ident {o : Operands} {q : Nat} (ho : OperandsOK o) (hq : maskToVector o.t = [q]) {k1 k2 : Gate1}
    (hm : ∀ r s, r < 2 → s < 2 → matMul 1 (gate1Mat k2) (gate1Mat k1) r s = matOne r s) (ψ : U64 → ℂ) :
    opOf (.one k2 o) (opOf (.one k1 o) ψ) = ψ := by
  have hv : ∀ k, Valid (.one k o) := fun k => ⟨ho, q, hq⟩
  have ht : ∀ k, UGate.ts (.one k o) = [q] := fun k => hq
  have hT := valid_targetsOK (.one k1 o)
  have hD := valid_ctrlDisj (hv k1)
  unfold opOf
  rw [ht] at hT hD
  rw [ht, ht]
  have hcs : ∀ k, UGate.cs (.one k o) = controls o := fun k => rfl
  rw [hcs, hcs] at *
  exact applyMat_inverse hT hD (fun r s hr hs => hm r s hr hs) ψ

/-- two one-qubit gates with the same controls and the same first target -/
theorem one_same {k1 k2 : Gate1} {o1 o2 : Operands} (hv1 : Valid (.one k1 o1)) (hv2 : Valid (.one k2 o2))
    (hc : o1.c = o2.c) (hv : o1.v = o2.v) :
    ∃ t1 t2, elemAt (UGate.one k1 o1).targetQubitList 0 = .ok t1 ∧ elemAt (UGate.one k2 o2).targetQubitList 0 = .ok t2 ∧
      maskToVector o1.t = [t1] ∧ (t1 = t2 → o2 = o1) := by
  obtain ⟨-, q1, h1⟩ := hv1
  obtain ⟨-, q2, h2⟩ := hv2
  refine ⟨q1, q2, ?_, ?_, h1, ?_⟩
  · show elemAt (maskToVector o1.t) 0 = _
    rw [h1]; rfl
  · show elemAt (maskToVector o2.t) 0 = _
    rw [h2]; rfl
  · rintro rfl
    have := mask_inj (h1.trans h2.symm)
    cases o1; cases o2
    simp_all

/-! ## families of rotations about one axis -/

/-- a family `mk` of rotations and the gates that are members of it up to a phase -/
structure AngleFam (f : Gate1 → Option (ℝ × ℝ)) (mk : ℝ → Gate1) : Prop where
  mat : ∀ k a p, f k = some (a, p) → ∀ r s, r < 2 → s < 2 → gate1Mat k r s = cis p * gate1Mat (mk a) r s
  mul : ∀ a b r s, r < 2 → s < 2 → matMul 1 (gate1Mat (mk b)) (gate1Mat (mk a)) r s = gate1Mat (mk (a + b)) r s

theorem AngleFam.prod {f : Gate1 → Option (ℝ × ℝ)} {mk : ℝ → Gate1} (h : AngleFam f mk) {k1 k2 : Gate1} {a b : ℝ × ℝ} (h1 : f k1 = some a)
    (h2 : f k2 = some b) {r s : Nat} (hr : r < 2) (hs : s < 2) :
    matMul 1 (gate1Mat k2) (gate1Mat k1) r s = cis (a.2 + b.2) * gate1Mat (mk (a.1 + b.1)) r s := by
  rw [← h.mul a.1 b.1 r s hr hs, matMul_one_eq, matMul_one_eq, h.mat k2 _ _ h2 r 0 hr (by omega), h.mat k2 _ _ h2 r 1 hr (by omega),
    h.mat k1 _ _ h1 0 s (by omega) hs, h.mat k1 _ _ h1 1 s (by omega) hs, cis_add]
  ring

theorem stageAngle_ok {f : Gate1 → Option (ℝ × ℝ)} {mk : ℝ → Gate1} (hf : AngleFam f mk)
    (hT : ∀ k1 k2 a b, f k1 = some a → f k2 = some b → |a.2 + b.2| < 1e-12 → a.2 + b.2 ≠ 0 →
      ∃ x y, rzAngle k1 = some x ∧ rzAngle k2 = some y ∧ a.2 + b.2 = -(x + y) / 2) {g1 g2 : UGate} (hv1 : Valid g1) (hv2 : Valid g2)
    (hc : g1.operands.c = g2.operands.c) (hv : g1.operands.v = g2.operands.v) : StageOK (stageAngle f mk g1 g2) g1 g2 := by
  unfold stageAngle
  split
  swap; · exact .inl rfl
  rename_i k1 o1 k2 o2
  split
  swap; · exact .inl rfl
  rename_i a b ha hb
  obtain ⟨t1, t2, e1, e2, hq, heq⟩ := one_same hv1 hv2 hc hv
  rw [e1, ok_bind, e2, ok_bind]
  split
  swap; · exact .inl rfl
  rename_i ht
  cases heq ht
  have ho : OperandsOK o1 := hv1.1
  by_cases hcond : (UGate.one k1 o1).operands.c = 0 ∨ dropTiny (a.2 + b.2) = 0
  swap
  · dsimp only; rw [if_neg hcond]; exact .inl rfl
  dsimp only
  rw [if_pos hcond, rebuild_one ho hq]
  have hδ : |a.2 + b.2 - dropTiny (a.2 + b.2)| < 1e-12 := by
    unfold dropTiny
    split
    · rename_i h; simpa using h
    · simp; norm_num
  refine .inr ⟨_, _, a.2 + b.2 - dropTiny (a.2 + b.2), rfl, ⟨⟨ho, t1, hq⟩, fun q h => .inl h, ?_⟩, hδ, ?_⟩
  swap
  · intro hne
    have hlt : |a.2 + b.2| < 1e-12 := by
      by_contra hge
      apply hne
      unfold dropTiny
      rw [if_neg hge]; ring
    have h0 : dropTiny (a.2 + b.2) = 0 := by
      unfold dropTiny
      rw [if_pos hlt]
    rw [h0, sub_zero] at hne ⊢
    obtain ⟨x, y, hx, hy, he⟩ := hT _ _ _ _ ha hb hlt hne
    exact ⟨_, _, _, x, y, rfl, rfl, hx, hy, he⟩
  intro ψ j
  rw [one_pair ho hq (k3 := mk (a.1 + b.1)) (z := cis (a.2 + b.2)) (fun r s hr hs => hf.prod ha hb hr hs)]
  have hcs : UGate.cs (.one k1 o1) = controls o1 := rfl
  rw [hcs]
  by_cases hC : CtrlOK (controls o1) j
  · rw [if_pos hC, if_pos hC, ← mul_assoc, ← cis_add]
    congr 2; ring
  · rw [if_neg hC, if_neg hC]
    rcases hcond with h0 | h0
    · exfalso
      apply hC
      rw [← ctrlOK_controls ho j]
      have h0' : o1.c = 0 := h0
      have : o1.v = 0 := by
        apply U64.ext; intro q _
        rw [show (0 : U64).getLsbD q = false from BitVec.getLsbD_zero]
        cases hq' : o1.v.getLsbD q
        · rfl
        · have := ho.sub q hq'
          rw [h0', show (0 : U64).getLsbD q = false from BitVec.getLsbD_zero] at this; cases this
      rw [h0', this]; simp
    · rw [h0, cis_zero, one_mul]

/-- the named members of a family -/
structure FixedFam (ff : Gate1 → Option Nat) (P : Nat) (tb : Nat → Option (Option Gate1)) (f : Gate1 → Option (ℝ × ℝ)) (mk : ℝ → Gate1)
    (ang ph : Nat → ℝ) : Prop where
  fam : AngleFam f mk
  named : ∀ k n, ff k = some n → f k = some (ang n, ph n)
  named' : ∀ m k, tb m = some (some k) → ff k = some m
  tab0 : ∀ m, tb m = some none → m = 0
  ang_add : ∀ a b, ang (a + b) = ang a + ang b
  ph_add : ∀ a b, ph (a + b) = ph a + ph b
  one : ∀ r s, r < 2 → s < 2 → gate1Mat (mk 0) r s = matOne r s
  period : ∀ r s, r < 2 → s < 2 → cis (ph P) * gate1Mat (mk (ang P)) r s = matOne r s

theorem FixedFam.zero {ff P tb f mk ang ph} (h : FixedFam ff P tb f mk ang ph) : ang 0 = 0 ∧ ph 0 = 0 := by
  constructor
  · have := h.ang_add 0 0; simp at this; exact this
  · have := h.ph_add 0 0; simp at this; exact this

theorem FixedFam.add {ff P tb f mk ang ph} (h : FixedFam ff P tb f mk ang ph) (m : Nat) {r s : Nat} (hr : r < 2) (hs : s < 2) :
    cis (ph (m + P)) * gate1Mat (mk (ang (m + P))) r s = cis (ph m) * gate1Mat (mk (ang m)) r s := by
  rw [h.ang_add, h.ph_add, ← h.fam.mul (ang m) (ang P) r s hr hs, matMul_one_eq, cis_add]
  have e0 := h.period r 0 hr (by omega)
  have e1 := h.period r 1 hr (by omega)
  have : cis (ph m) * cis (ph P) * (gate1Mat (mk (ang P)) r 0 * gate1Mat (mk (ang m)) 0 s + gate1Mat (mk (ang P)) r 1 * gate1Mat (mk (ang m)) 1 s) =
      cis (ph m) * (cis (ph P) * gate1Mat (mk (ang P)) r 0 * gate1Mat (mk (ang m)) 0 s + cis (ph P) * gate1Mat (mk (ang P)) r 1 * gate1Mat (mk (ang m)) 1 s) := by
    ring
  rw [this, e0, e1]
  congr 1
  interval_cases r <;> simp [matOne]

theorem FixedFam.mod {ff P tb f mk ang ph} (h : FixedFam ff P tb f mk ang ph) (m : Nat) {r s : Nat} (hr : r < 2) (hs : s < 2) :
    cis (ph m) * gate1Mat (mk (ang m)) r s = cis (ph (m % P)) * gate1Mat (mk (ang (m % P))) r s := by
  have key : ∀ d, cis (ph (m % P + P * d)) * gate1Mat (mk (ang (m % P + P * d))) r s =
      cis (ph (m % P)) * gate1Mat (mk (ang (m % P))) r s := by
    intro d
    induction d with
    | zero => rfl
    | succ d ih => rw [show m % P + P * (d + 1) = m % P + P * d + P by ring, h.add _ hr hs, ih]
  have := key (m / P)
  rw [Nat.mod_add_div] at this
  exact this

theorem stageFixed_ok {ff P tb f mk ang ph} (h : FixedFam ff P tb f mk ang ph) {g1 g2 : UGate} (hv1 : Valid g1) (hv2 : Valid g2)
    (hc : g1.operands.c = g2.operands.c) (hv : g1.operands.v = g2.operands.v) : StageOK (stageFixed ff P tb g1 g2) g1 g2 := by
  unfold stageFixed
  split
  swap; · exact .inl rfl
  rename_i k1 o1 k2 o2
  split
  swap; · exact .inl rfl
  rename_i a b ha hb
  obtain ⟨t1, t2, e1, e2, hq, heq⟩ := one_same hv1 hv2 hc hv
  rw [e1, ok_bind, e2, ok_bind]
  split
  swap; · exact .inl rfl
  rename_i ht
  cases heq ht
  have ho : OperandsOK o1 := hv1.1
  have hprod : ∀ r s, r < 2 → s < 2 → matMul 1 (gate1Mat k2) (gate1Mat k1) r s =
      cis (ph ((a + b) % P)) * gate1Mat (mk (ang ((a + b) % P))) r s := by
    intro r s hr hs
    rw [h.fam.prod (h.named _ _ ha) (h.named _ _ hb) hr hs, ← h.ang_add, ← h.ph_add, h.mod _ hr hs]
  split
  · rename_i htab
    refine StageOK.exact rfl (Merges.exact trivial (fun q hq => absurd hq (uses_ident q)) fun ψ j => ?_)
    rw [cis_zero, one_mul, opOf_ident]
    rw [one_ident ho hq (fun r s hr hs => ?_)]
    rw [hprod r s hr hs, h.tab0 _ htab, h.zero.1, h.zero.2, cis_zero, one_mul, h.one r s hr hs]
  · rename_i k htab
    rw [rebuild_one ho hq]
    refine StageOK.exact rfl (Merges.exact ⟨ho, t1, hq⟩ (fun q hq => .inl hq) fun ψ j => ?_)
    rw [one_pair ho hq (k3 := k) (z := 1) (fun r s hr hs => ?_)]
    · rw [cis_zero]; split <;> simp
    · rw [hprod r s hr hs, h.fam.mat k _ _ (h.named _ _ (h.named' _ _ htab)) r s hr hs, one_mul]
  · exact .inl rfl

theorem two_cases {r : Nat} (h : r < 2) : r = 0 ∨ r = 1 := by omega

theorem famZ : AngleFam angleZ .U1 := by
  constructor
  · intro k a p h r s hr hs
    have e1 : cis (Real.pi / 2) = Complex.I := by rw [cis_eq]; apply Complex.ext <;> simp
    have e7 : cis (7 * Real.pi / 4) = cis (-(Real.pi / 4)) := by
      rw [show 7 * Real.pi / 4 = -(Real.pi / 4) + Real.pi + Real.pi by ring, cis_add, cis_add, cis_pi]; ring
    have e6 : cis (6 * Real.pi / 4) = -Complex.I := by
      rw [show 6 * Real.pi / 4 = Real.pi / 2 + Real.pi by ring, cis_add, cis_pi, e1]; ring
    have e4 : cis (4 * Real.pi / 4) = -1 := by rw [show 4 * Real.pi / 4 = Real.pi by ring, cis_pi]
    have e2 : cis (2 * Real.pi / 4) = Complex.I := by rw [show 2 * Real.pi / 4 = Real.pi / 2 by ring, e1]
    cases k <;> simp [angleZ, octPhase] at h <;> obtain ⟨rfl, rfl⟩ := h <;> simp only [cis_zero, one_mul, gate1Mat, pauliZ]
    · rw [cis_pi]
    · rw [e2]
    · rw [e6]
    · rw [e7]
    · rename_i θ
      have : cis θ = cis (θ / 2) * cis (θ / 2) := by rw [← cis_add]; congr 1; ring
      have h2 : cis (-θ / 2) * cis (θ / 2) = 1 := by rw [← cis_add, show -θ / 2 + θ / 2 = 0 by ring, cis_zero]
      rw [this]
      have h3 : cis (-θ / 2) = Real.cos (θ / 2) - Complex.I * Real.sin (θ / 2) := by
        rw [cis_eq, show -θ / 2 = -(θ / 2) by ring, Real.cos_neg, Real.sin_neg]; apply Complex.ext <;> simp [-Complex.ofReal_cos, -Complex.ofReal_sin]
      have h4 : cis (θ / 2) = Real.cos (θ / 2) + Complex.I * Real.sin (θ / 2) := by
        rw [cis_eq]; apply Complex.ext <;> simp [-Complex.ofReal_cos, -Complex.ofReal_sin]
      rcases two_cases hr with rfl | rfl <;> rcases two_cases hs with rfl | rfl <;>
        simp only [rot, pauliZ, mat2] <;> simp [-Complex.ofReal_cos, -Complex.ofReal_sin]
      · rw [h3]
      · rw [← mul_assoc, h2, one_mul, h4]
  · intro a b r s hr hs
    rw [matMul_one_eq]
    simp only [gate1Mat]
    rcases two_cases hr with rfl | rfl <;> rcases two_cases hs with rfl | rfl <;> simp [mat2]
    rw [add_comm a b, cis_add]

theorem fixedZ : FixedFam octPhase 8 octGate angleZ .U1 (fun n => n * Real.pi / 4) (fun _ => 0) where
  fam := famZ
  named := by
    intro k n h
    unfold angleZ
    rw [h]
  named' := by
    intro m k h
    unfold octGate at h
    split at h <;> first | cases h; rfl | cases h
  tab0 := by
    intro m h
    unfold octGate at h
    split at h <;> first | rfl | cases h
  ang_add := by intro a b; push_cast; ring
  ph_add := by intro a b; ring
  one := by
    intro r s hr hs
    rcases two_cases hr with rfl | rfl <;> rcases two_cases hs with rfl | rfl <;> simp [gate1Mat, mat2, matOne, cis_zero]
  period := by
    intro r s hr hs
    have : cis ((8 : ℕ) * Real.pi / 4) = 1 := by
      rw [show ((8 : ℕ) : ℝ) * Real.pi / 4 = Real.pi + Real.pi by push_cast; ring, cis_add, cis_pi]; norm_num
    simp only [gate1Mat, this, cis_zero, one_mul]
    rcases two_cases hr with rfl | rfl <;> rcases two_cases hs with rfl | rfl <;> simp [mat2, matOne]

theorem cis_half_pi : cis (Real.pi / 2) = Complex.I := by rw [cis_eq]; apply Complex.ext <;> simp

theorem cis_quarter : cis (Real.pi / 4) = (Real.cos (Real.pi / 4) : ℂ) * (1 + Complex.I) := by
  rw [cis_eq]
  have : Real.sin (Real.pi / 4) = Real.cos (Real.pi / 4) := by rw [Real.sin_pi_div_four, Real.cos_pi_div_four]
  rw [this]; apply Complex.ext <;> simp [-Complex.ofReal_cos]

theorem cos_quarter_sq : (Real.cos (Real.pi / 4) : ℂ) * Real.cos (Real.pi / 4) = 1 / 2 := by
  rw [← Complex.ofReal_mul, Real.cos_pi_div_four]
  rw [show Real.sqrt 2 / 2 * (Real.sqrt 2 / 2) = 1 / 2 by
    have := Real.mul_self_sqrt (show (0:ℝ) ≤ 2 by norm_num)
    nlinarith]
  push_cast; rfl

/-- rotations about an axis whose Pauli matrix squares to one -/
theorem rot_mul {P : Nat → Nat → ℂ} (hP : ∀ r s, r < 2 → s < 2 → matMul 1 P P r s = matOne r s) (a b : ℝ) {r s : Nat} (hr : r < 2) (hs : s < 2) :
    matMul 1 (rot P b) (rot P a) r s = rot P (a + b) r s := by
  have h := hP r s hr hs
  rw [matMul_one_eq] at h ⊢
  have hc : (Real.cos ((a + b) / 2) : ℂ) = Real.cos (a / 2) * Real.cos (b / 2) - Real.sin (a / 2) * Real.sin (b / 2) := by
    rw [add_div, Real.cos_add]; push_cast; rfl
  have hsn : (Real.sin ((a + b) / 2) : ℂ) = Real.sin (a / 2) * Real.cos (b / 2) + Real.cos (a / 2) * Real.sin (b / 2) := by
    rw [add_div, Real.sin_add]; push_cast; rfl
  simp only [rot]
  rw [hc, hsn]
  generalize (Real.cos (a / 2) : ℂ) = ca
  generalize (Real.cos (b / 2) : ℂ) = cb
  generalize (Real.sin (a / 2) : ℂ) = sa
  generalize (Real.sin (b / 2) : ℂ) = sb
  have hI := Complex.I_mul_I
  rcases two_cases hr with rfl | rfl <;> rcases two_cases hs with rfl | rfl <;> simp [matOne] at h ⊢ <;>
    first | linear_combination (Complex.I * Complex.I * sa * sb) * h + (sa * sb) * hI | linear_combination (Complex.I * Complex.I * sa * sb) * h

/-- square roots of a Pauli as rotations -/
theorem rot_two_pi (P : Nat → Nat → ℂ) (r s : Nat) (hr : r < 2) (hs : s < 2) : cis Real.pi * rot P (2 * Real.pi) r s = matOne r s := by
  rw [cis_pi, rot, show 2 * Real.pi / 2 = Real.pi by ring]
  rcases two_cases hr with rfl | rfl <;> rcases two_cases hs with rfl | rfl <;> simp [matOne]

theorem rot_pi (P : Nat → Nat → ℂ) (r s : Nat) : cis (Real.pi / 2) * rot P Real.pi r s = P r s := by
  rw [cis_half_pi, rot, Real.cos_pi_div_two, Real.sin_pi_div_two]
  simp
  rw [← mul_assoc, Complex.I_mul_I]; ring

theorem rot_half_pi (P : Nat → Nat → ℂ) (r s : Nat) :
    cis (Real.pi / 4) * rot P (Real.pi / 2) r s = 1 / 2 * ((1 + Complex.I) * (if r = s then 1 else 0) + (1 - Complex.I) * P r s) := by
  rw [cis_quarter, rot, show Real.pi / 2 / 2 = Real.pi / 4 by ring]
  have hs : Real.sin (Real.pi / 4) = Real.cos (Real.pi / 4) := by rw [Real.sin_pi_div_four, Real.cos_pi_div_four]
  rw [hs]
  have h2 := cos_quarter_sq
  generalize (Real.cos (Real.pi / 4) : ℂ) = w at h2
  generalize (if r = s then (1 : ℂ) else 0) = d
  have hI := Complex.I_mul_I
  linear_combination ((1 + Complex.I) * d - Complex.I * (1 + Complex.I) * P r s) * h2 - 1 / 2 * P r s * hI

theorem rot_three_half_pi (P : Nat → Nat → ℂ) (r s : Nat) :
    cis (3 * Real.pi / 2 / 2) * rot P (3 * Real.pi / 2) r s = 1 / 2 * ((1 - Complex.I) * (if r = s then 1 else 0) + (1 + Complex.I) * P r s) := by
  have hc : cis (3 * Real.pi / 2 / 2) = cis (Real.pi / 4) * Complex.I := by
    rw [show 3 * Real.pi / 2 / 2 = Real.pi / 4 + Real.pi / 2 by ring, cis_add, cis_half_pi]
  rw [hc, cis_quarter, rot, show 3 * Real.pi / 2 / 2 = Real.pi / 4 + Real.pi / 2 by ring, Real.cos_add_pi_div_two, Real.sin_add_pi_div_two]
  have hs : Real.sin (Real.pi / 4) = Real.cos (Real.pi / 4) := by rw [Real.sin_pi_div_four, Real.cos_pi_div_four]
  rw [hs]
  push_cast
  have h2 := cos_quarter_sq
  push_cast at h2
  generalize Complex.cos ((Real.pi : ℂ) / 4) = w at *
  generalize (if r = s then (1 : ℂ) else 0) = d
  have hI := Complex.I_mul_I
  linear_combination (-Complex.I * (1 + Complex.I) * d - Complex.I * Complex.I * (1 + Complex.I) * P r s) * h2 - 1 / 2 * d * hI - 1 / 2 * (1 + Complex.I) * P r s * hI

theorem famX : AngleFam angleX .RX := by
  constructor
  · intro k a p h r s hr hs
    have e2 : (2:ℝ) * Real.pi / 2 / 2 = Real.pi / 2 := by ring
    have e2' : (2:ℝ) * Real.pi / 2 = Real.pi := by ring
    cases k <;> simp [angleX, quadRx] at h <;> obtain ⟨rfl, rfl⟩ := h <;> simp only [gate1Mat]
    · try rw [e2, e2']
      try rw [show (Real.pi / 2 : ℝ) = Real.pi / 2 from rfl]
      exact (rot_pi _ r s).symm
    · rw [show Real.pi / 2 / 2 = Real.pi / 4 by ring, rot_half_pi]
      rcases two_cases hr with rfl | rfl <;> rcases two_cases hs with rfl | rfl <;> simp [pauliX, mat2]
    · rw [rot_three_half_pi]
      rcases two_cases hr with rfl | rfl <;> rcases two_cases hs with rfl | rfl <;> simp [pauliX, mat2]
    · rw [cis_zero, one_mul]
  · intro a b r s hr hs
    refine rot_mul ?_ a b hr hs
    intro r s hr hs
    rw [matMul_one_eq]
    rcases two_cases hr with rfl | rfl <;> rcases two_cases hs with rfl | rfl <;> simp [pauliX, mat2, matOne]

theorem famY : AngleFam angleY .RY := by
  constructor
  · intro k a p h r s hr hs
    have e2 : (2:ℝ) * Real.pi / 2 / 2 = Real.pi / 2 := by ring
    have e2' : (2:ℝ) * Real.pi / 2 = Real.pi := by ring
    have hI := Complex.I_mul_I
    cases k <;> simp [angleY, quadRy] at h <;> obtain ⟨rfl, rfl⟩ := h <;> simp only [gate1Mat]
    · try rw [e2, e2']
      exact (rot_pi _ r s).symm
    · rw [show Real.pi / 2 / 2 = Real.pi / 4 by ring, rot_half_pi]
      rcases two_cases hr with rfl | rfl <;> rcases two_cases hs with rfl | rfl <;> simp [pauliY, mat2] <;> first | linear_combination hI / 2 | linear_combination -hI / 2 | linear_combination hI | linear_combination -hI
    · rw [rot_three_half_pi]
      rcases two_cases hr with rfl | rfl <;> rcases two_cases hs with rfl | rfl <;> simp [pauliY, mat2] <;> first | linear_combination hI / 2 | linear_combination -hI / 2 | linear_combination hI | linear_combination -hI
    · rw [cis_zero, one_mul]
  · intro a b r s hr hs
    refine rot_mul ?_ a b hr hs
    intro r s hr hs
    rw [matMul_one_eq]
    rcases two_cases hr with rfl | rfl <;> rcases two_cases hs with rfl | rfl <;> simp [pauliY, mat2, matOne]

theorem rot_zero (P : Nat → Nat → ℂ) {r s : Nat} (hr : r < 2) (hs : s < 2) : rot P 0 r s = matOne r s := by
  rcases two_cases hr with rfl | rfl <;> rcases two_cases hs with rfl | rfl <;> simp [rot, matOne]

theorem fixedX : FixedFam quadRx 4 quadRxGate angleX .RX (fun n => n * Real.pi / 2) (fun n => n * Real.pi / 2 / 2) where
  fam := famX
  named := by
    intro k n h
    unfold angleX
    rw [h]
  named' := by
    intro m k h
    unfold quadRxGate at h
    split at h <;> first | cases h; rfl | cases h
  tab0 := by
    intro m h
    unfold quadRxGate at h
    split at h <;> first | rfl | cases h
  ang_add := by intro a b; push_cast; ring
  ph_add := by intro a b; push_cast; ring
  one := fun r s hr hs => rot_zero _ hr hs
  period := by
    intro r s hr hs
    rw [show ((4 : ℕ) : ℝ) * Real.pi / 2 / 2 = Real.pi by push_cast; ring, show ((4 : ℕ) : ℝ) * Real.pi / 2 = 2 * Real.pi by push_cast; ring]
    exact rot_two_pi _ r s hr hs

theorem fixedY : FixedFam quadRy 4 quadRyGate angleY .RY (fun n => n * Real.pi / 2) (fun n => n * Real.pi / 2 / 2) where
  fam := famY
  named := by
    intro k n h
    unfold angleY
    rw [h]
  named' := by
    intro m k h
    unfold quadRyGate at h
    split at h <;> first | cases h; rfl | cases h
  tab0 := by
    intro m h
    unfold quadRyGate at h
    split at h <;> first | rfl | cases h
  ang_add := by intro a b; push_cast; ring
  ph_add := by intro a b; push_cast; ring
  one := fun r s hr hs => rot_zero _ hr hs
  period := by
    intro r s hr hs
    rw [show ((4 : ℕ) : ℝ) * Real.pi / 2 / 2 = Real.pi by push_cast; ring, show ((4 : ℕ) : ℝ) * Real.pi / 2 = 2 * Real.pi by push_cast; ring]
    exact rot_two_pi _ r s hr hs

theorem tinyZ (k1 k2 : Gate1) (a b : ℝ × ℝ) (ha : angleZ k1 = some a) (hb : angleZ k2 = some b) :
    ∃ x y, rzAngle k1 = some x ∧ rzAngle k2 = some y ∧ a.2 + b.2 = -(x + y) / 2 := by
  have key : ∀ k a, angleZ k = some a → ∃ x, rzAngle k = some x ∧ a.2 = -x / 2 := by
    intro k a h
    cases k <;> simp [angleZ, octPhase] at h <;> subst h <;> exact ⟨_, rfl, by simp⟩
  obtain ⟨x, hx, ex⟩ := key _ _ ha
  obtain ⟨y, hy, ey⟩ := key _ _ hb
  exact ⟨x, y, hx, hy, by rw [ex, ey]; ring⟩

theorem tiny_none {a b : ℝ × ℝ} (ha : a.2 = 0 ∨ 1 / 2 ≤ a.2) (hb : b.2 = 0 ∨ 1 / 2 ≤ b.2) (h : |a.2 + b.2| < 1e-12) : a.2 + b.2 = 0 := by
  have := (abs_lt.1 h).2
  norm_num at this
  rcases ha with h1 | h1 <;> rcases hb with h2 | h2 <;> first | (rw [h1, h2]; ring) | (exfalso; linarith)

theorem tinyX {k : Gate1} {a : ℝ × ℝ} (h : angleX k = some a) : a.2 = 0 ∨ 1 / 2 ≤ a.2 := by
  have := Real.two_le_pi
  cases k <;> simp [angleX, quadRx] at h <;> subst h <;> dsimp only <;> first | exact .inl rfl | (right; linarith)

theorem tinyY {k : Gate1} {a : ℝ × ℝ} (h : angleY k = some a) : a.2 = 0 ∨ 1 / 2 ≤ a.2 := by
  have := Real.two_le_pi
  cases k <;> simp [angleY, quadRy] at h <;> subst h <;> dsimp only <;> first | exact .inl rfl | (right; linarith)

end Verif.Proofs
