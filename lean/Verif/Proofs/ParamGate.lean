import Verif.Proofs.SlotLoop
import Verif.Proofs.Prob
import Verif.Spec.Circuit

/-! # Parametric rotations -/

namespace Verif.Proofs
open Verif Verif.Spec Verif.Model
attribute [-simp] BitVec.getLsbD_eq_getElem

/-- the factory call of a rotation -/
noncomputable def _root_.Verif.Spec.RotDesc.build : RotDesc → Res PRot
  | .axis a t k cs vs => mkAxis a t k cs vs
  | .pauli p k cs vs => mkParamPauli p k cs vs

/-- the fixed gate object of a rotation with its parameter -/
def _root_.Verif.Model.PRot.fix (θ : ℝ) : PRot → UGate
  | .axis a o k => .one (a.gate1 (k * θ)) o
  | .pauli g k => .pauliRot g (k * θ)

theorem rot_at_axis (θ : ℝ) (a : RotAxis) (t : Nat) (k : ℝ) (cs vs : List Nat) :
    (RotDesc.axis a t k cs vs).at θ = .one (a.gate1 (k * θ)) t cs vs := by cases a <;> rfl

theorem rot_build {r : RotDesc} {p : PRot} (h : r.build = .ok p) (θ : ℝ) : (r.at θ).build = .ok (p.fix θ) := by
  cases r with
  | axis a t k cs vs =>
    obtain ⟨o, ho, h⟩ := bind_ok (show (do let o ← mkOperands [t] cs vs; pure (PRot.axis a o k)) = .ok p from h)
    cases h
    rw [rot_at_axis]
    show (do let o ← mkOperands [t] cs vs; pure (UGate.one (a.gate1 (k * θ)) o)) = _
    rw [ho]; rfl
  | pauli q k cs vs =>
    obtain ⟨g, hg, h⟩ := bind_ok (show (do let g ← mkPauli q cs vs; pure (PRot.pauli g k)) = .ok p from h)
    cases h
    show (do let g ← mkPauli q cs vs; pure (UGate.pauliRot g (k * θ))) = _
    rw [hg]; rfl

theorem rot_descOK (r : RotDesc) (θ : ℝ) : DescOK (r.at θ) := by
  cases r with
  | axis a t k cs vs => rw [rot_at_axis]; trivial
  | pauli p k cs vs => trivial

theorem fix_operands (p : PRot) (θ : ℝ) : (p.fix θ).operands = p.operands := by cases p <;> rfl

theorem rot_qubits (r : RotDesc) (θ : ℝ) : qubitsOf (r.at θ) = qubitsOf (r.at 0) := by
  cases r with
  | axis a t k cs vs => rw [rot_at_axis, rot_at_axis]; rfl
  | pauli p k cs vs => rfl

theorem rot_update {p : PRot} {n : Nat} (h : checkWithinBounds p.operands n = .ok ()) (L : Nat) (θ : ℝ) :
    p.update L n θ = (p.fix θ).update L 1 n := by
  cases p with
  | axis a o k => rfl
  | pauli g k =>
    unfold PRot.update UGate.update PRot.fix pauliRotUpdate
    dsimp only
    rw [show checkWithinBounds g.o n = .ok () from h]
    rfl

theorem bounds_of {g : UGate} (ho : OperandsOK g.operands) {n : Nat} (hn : n < 64) (ht : ∀ q ∈ UGate.ts g, q < n)
    (hc : ∀ p ∈ UGate.cs g, p.1 < n) : checkWithinBounds g.operands n = .ok () := by
  rw [checkWithinBounds_self ho hn]
  rintro x (hx | hx)
  · exact ht x hx
  · exact hc (x, g.operands.v.getLsbD x) (List.mem_map.2 ⟨x, hx, rfl⟩)

theorem rot_operandsOK {r : RotDesc} {p : PRot} (h : r.build = .ok p) : OperandsOK p.operands := by
  have := rot_build h 0
  obtain ⟨ts, h1, -⟩ := build_operands this
  rw [fix_operands] at h1
  exact operandsOK_of h1

theorem rot_bounds {r : RotDesc} {p : PRot} (h : r.build = .ok p) {n : Nat} (hn : n < 64) (hq : ∀ q ∈ qubitsOf (r.at 0), q < n) :
    checkWithinBounds p.operands n = .ok () := by
  obtain ⟨hv, he, hs⟩ := build_valid (rot_descOK r 0) (rot_build h 0)
  obtain ⟨h1, h2⟩ := build_bounds hs hq
  have := bounds_of (g := p.fix 0) (by rw [fix_operands]; exact rot_operandsOK h) hn h1 h2
  rwa [fix_operands] at this

/-- one team of the batched kernel does to its slot what the fixed gate does to a single state -/
theorem rot_launch {r : RotDesc} {p : PRot} (h : r.build = .ok p) {n : Nat} (hn : n < 64) (hq : ∀ q ∈ qubitsOf (r.at 0), q < n)
    (θ : ℝ) (ψ : U64 → ℂ) :
    Runs (InState (2 ^ n)) (p.launch n θ).pool ψ (onState (2 ^ n) (operatorOf (r.at θ)) ψ) := by
  have hb := rot_bounds h hn hq
  obtain ⟨d, hd, hr⟩ := build_update (rot_descOK r θ) (rot_build h θ) (L := 0) (B := 1) (n := n) (Or.inl rfl) hn
    (by have := Nat.pow_le_pow_right (n := 2) (by norm_num) hn.le; omega) (by rw [rot_qubits]; exact hq)
  rw [← rot_update hb] at hd
  have hr := hr ψ
  rw [Nat.one_mul] at hr
  cases p with
  | axis a o k =>
    unfold PRot.update at hd
    dsimp only at hd
    rw [show checkWithinBounds o n = .ok () from hb, Nat.one_mul] at hd
    obtain rfl : gate1Kernel 0 n o (2 ^ n) (a.gate1 (k * θ)) = d := by injection hd
    cases a with
    | X =>
      have e : gate1Kernel 0 n o (2 ^ n) (RotAxis.X.gate1 (k * θ)) = .par _ (PRot.launch n θ (.axis .X o k)).pool := by
        rw [mul_comm]
        show dense1 0 n _ _ _ _ _ = _
        unfold dense1
        refine if_neg ?_
        exact fun hh => absurd hh.1 (lt_irrefl 0)
      rw [e] at hr
      exact hr
    | Y =>
      have e : gate1Kernel 0 n o (2 ^ n) (RotAxis.Y.gate1 (k * θ)) = .par _ (PRot.launch n θ (.axis .Y o k)).pool := by
        rw [mul_comm]
        show dense1 0 n _ _ _ _ _ = _
        unfold dense1
        refine if_neg ?_
        exact fun hh => absurd hh.1 (lt_irrefl 0)
      rw [e] at hr
      exact hr
    | Z =>
      have e : gate1Kernel 0 n o (2 ^ n) (RotAxis.Z.gate1 (k * θ)) = .par _ (PRot.launch n θ (.axis .Z o k)).pool := by
        rw [mul_comm]
        rfl
      rw [e] at hr
      exact hr
  | pauli g k =>
    unfold PRot.update at hd
    dsimp only at hd
    rw [show checkWithinBounds g.o n = .ok () from hb, Nat.one_mul] at hd
    obtain rfl : applyPauliRotation g.o.c g.o.v g.p.x g.p.z g.p.coef (k * θ) (2 ^ n) = d := by injection hd
    have e : applyPauliRotation g.o.c g.o.v g.p.x g.p.z g.p.coef (k * θ) (2 ^ n) = .par _ (PRot.launch n θ (.pauli g k)).pool := by
      unfold applyPauliRotation
      dsimp only
      by_cases hx : g.p.x = 0
      · have e2 : PRot.launch n θ (.pauli g k) = ⟨_, pauliRotDiag g.o.c g.o.v g.p.z
            (Complex.cos (-(((k * θ : ℝ) : ℂ) * g.p.coef) / 2) - imagUnit * Complex.sin (-(((k * θ : ℝ) : ℂ) * g.p.coef) / 2))
            (Complex.cos (-(((k * θ : ℝ) : ℂ) * g.p.coef) / 2) + imagUnit * Complex.sin (-(((k * θ : ℝ) : ℂ) * g.p.coef) / 2))
            (2 ^ n)⟩ := if_pos hx
        rw [e2, if_pos hx, neg_div]
      · have e2 : PRot.launch n θ (.pauli g k) = ⟨_, pauliRotFlip imagUnit phaseM90 g.o.c g.o.v g.p.x g.p.z
            (Complex.cos (-(((k * θ : ℝ) : ℂ) * g.p.coef) / 2)) (Complex.sin (-(((k * θ : ℝ) : ℂ) * g.p.coef) / 2)) (2 ^ n)⟩ :=
          if_neg hx
        rw [e2, if_neg hx, neg_div]
    rw [e] at hr
    exact hr

end Verif.Proofs
