import Verif.Model.FloatParam
import Verif.Spec.FloatParam
import Verif.Proofs.FloatCircuit
import Verif.Proofs.FloatOutcome
import Verif.Proofs.ParamGate

/-! # Parametric rotations in floating-point arithmetic -/

namespace Verif.Proofs
open Verif Verif.Spec Verif.Model
attribute [-simp] BitVec.getLsbD_eq_getElem

section
variable {F : Type} [_root_.Zero F] [One F] [Add F] [Sub F] [Mul F] [Neg F] {lib : FloatLib F} {val : F → ℝ} {u w η Ω ε : ℝ}

local notation "⟪" x "⟫" => cval val x

/-- a rounded product of rounded numbers -/
theorem prod_angle (A : Accurate lib val u w η Ω) {k t : ℝ} (hk : |k| ≤ 32) (ht : |t| ≤ 32) (hkt : |k * t| ≤ 32)
    (hε : 4 * (u + η) * ((1 + |k|) * (1 + |t|)) + w ≤ ε) (h4 : ε ≤ 1 / 400) :
    (|val (lib.cast k * lib.cast t) - k * t| + w ≤ ε ∧ |val (lib.cast k * lib.cast t)| ≤ 33) := by
  have hu0 := A.u_nonneg
  have hη0 := A.eta_nonneg
  have hw0 := A.w_nonneg
  have pk := abs_nonneg k
  have pt := abs_nonneg t
  have hKT : 1 ≤ (1 + |k|) * (1 + |t|) := by nlinarith
  have hs : u + η ≤ 1 / 1600 := by nlinarith
  have hs0 : 0 ≤ u + η := by linarith
  have ca := A.cast k (by linarith)
  have cb := A.cast t (by linarith)
  have da : |val (lib.cast k) - k| ≤ (u + η) * (1 + |k|) := by nlinarith
  have db : |val (lib.cast t) - t| ≤ (u + η) * (1 + |t|) := by nlinarith
  have ba : |val (lib.cast k)| ≤ 1 + |k| := by
    have := abs_add_le (val (lib.cast k) - k) k; rw [sub_add_cancel] at this; nlinarith
  have bb : |val (lib.cast t)| ≤ 1 + |t| := by
    have := abs_add_le (val (lib.cast t) - t) t; rw [sub_add_cancel] at this; nlinarith
  have hm := A.mul (lib.cast k) (lib.cast t) (by linarith) (by linarith)
  have hab : |val (lib.cast k) * val (lib.cast t)| ≤ (1 + |k|) * (1 + |t|) := by
    rw [abs_mul]; exact mul_le_mul ba bb (abs_nonneg _) (by linarith)
  have e : val (lib.cast k) * val (lib.cast t) - k * t = (val (lib.cast k) - k) * val (lib.cast t) + k * (val (lib.cast t) - t) := by ring
  have h1 : |val (lib.cast k) * val (lib.cast t) - k * t| ≤ 2 * ((u + η) * ((1 + |k|) * (1 + |t|))) := by
    rw [e]
    refine le_trans (abs_add_le _ _) ?_
    rw [abs_mul, abs_mul]
    have q1 : |val (lib.cast k) - k| * |val (lib.cast t)| ≤ (u + η) * (1 + |k|) * (1 + |t|) :=
      mul_le_mul da bb (abs_nonneg _) (by positivity)
    have q2 : |k| * |val (lib.cast t) - t| ≤ (1 + |k|) * ((u + η) * (1 + |t|)) :=
      mul_le_mul (by linarith) db (abs_nonneg _) (by linarith)
    nlinarith
  have h2 : |val (lib.cast k * lib.cast t) - val (lib.cast k) * val (lib.cast t)| ≤ (u + η) * ((1 + |k|) * (1 + |t|)) := by
    have h3 := mul_le_mul_of_nonneg_left hab hu0
    have h5 := mul_le_mul_of_nonneg_left hKT hη0
    nlinarith
  have h3 : |val (lib.cast k * lib.cast t) - k * t| ≤ 3 * ((u + η) * ((1 + |k|) * (1 + |t|))) :=
    le_trans (abs_sub_le _ (val (lib.cast k) * val (lib.cast t)) _) (by linarith)
  have h5 : 0 ≤ (u + η) * ((1 + |k|) * (1 + |t|)) := by positivity
  have h6 : |val (lib.cast k * lib.cast t) - k * t| + w ≤ ε := by linarith
  refine ⟨h6, ?_⟩
  have := abs_add_le (val (lib.cast k * lib.cast t) - k * t) (k * t)
  rw [sub_add_cancel] at this
  linarith

theorem prod_err (A : Accurate lib val u w η Ω) {k t : ℝ} (hε : 4 * (u + η) * ((1 + |k|) * (1 + |t|)) + w ≤ ε) :
    (u + η) * (1 + |k * t|) + w ≤ ε := by
  have hs0 : 0 ≤ u + η := add_nonneg A.u_nonneg A.eta_nonneg
  have pk := abs_nonneg k
  have pt := abs_nonneg t
  have h1 : 1 + |k * t| ≤ 4 * ((1 + |k|) * (1 + |t|)) := by rw [abs_mul]; nlinarith [mul_nonneg pk pt]
  nlinarith [mul_le_mul_of_nonneg_left h1 hs0]

theorem half_near (A : Accurate lib val u w η Ω) {x : F} {a : ℝ} (ha : |a| ≤ 32) (hη : η ≤ ε) (h4 : ε ≤ 1 / 400)
    (h1 : |val x - a| + w ≤ ε) (h2 : |val x| ≤ 33) :
    |val (lib.cos (lib.half x)) - Real.cos (a / 2)| ≤ 2 * ε ∧ |val (lib.sin (lib.half x)) - Real.sin (a / 2)| ≤ 2 * ε := by
  have hη0 := A.eta_nonneg
  have hw0 := A.w_nonneg
  have h := A.half x (by linarith)
  have h3 : |val x / 2 - a / 2| = |val x - a| / 2 := by rw [← sub_div, abs_div, abs_two]
  have h5 : |val (lib.half x) - a / 2| ≤ |val (lib.half x) - val x / 2| + |val x / 2 - a / 2| := abs_sub_le _ _ _
  have hx : |val (lib.half x) - a / 2| + w ≤ 2 * ε := by
    have := abs_nonneg (val x - a)
    linarith
  have hr : |val (lib.half x)| ≤ 64 := by
    have := abs_add_le (val (lib.half x) - a / 2) (a / 2)
    rw [sub_add_cancel, abs_div, abs_two] at this
    linarith
  exact ⟨cos_near A hr hx, sin_near A hr hx⟩

variable {B n q L : Nat} {t c v : U64}

/-- rotations about an axis by an angle near `a` -/
theorem close_axis (A : Accurate lib val u w η Ω) (he : u + η ≤ ε) (h4 : ε ≤ 1 / 400) {o : Operands} (hL : LanesOK L)
    (h : MasksOK B n o.t o.c o.v) (hq : IsBit o.t q) {x : F} {a : ℝ} (ha : |a| ≤ 32)
    (h1 : |val x - a| + w ≤ ε) (h2 : |val x| ≤ 33) (r : RotAxis) :
    CloseTo (B * 2 ^ n) val ε η (rotKernelF lib L n o (B * 2 ^ n) x r) (rotKernelF exactLib L n o (B * 2 ^ n) a r) := by
  have hu0 := A.u_nonneg
  have hη0 := A.eta_nonneg
  obtain ⟨c, s⟩ := half_near A ha (by linarith) h4 h1 h2
  have s' : |val (-lib.sin (lib.half x)) - -Real.sin (a / 2)| ≤ 2 * ε := by rw [A.neg, ← neg_sub', abs_neg]; exact s
  cases r with
  | X =>
    have n1 : Near val (⟨lib.cos (lib.half x), 0⟩ : Cx F) ⟨Real.cos (a / 2), 0⟩ (80 * ε) := (Near.real c A.zero).mono (by linarith)
    have n2 : Near val (⟨0, -lib.sin (lib.half x)⟩ : Cx F) ⟨0, -Real.sin (a / 2)⟩ (80 * ε) := (Near.imag s' A.zero).mono (by linarith)
    have m1 : ‖(⟨Real.cos (a / 2), 0⟩ : ℂ)‖ ≤ 1 := by rw [norm_real]; exact Real.abs_cos_le_one _
    have m2 : ‖(⟨0, -Real.sin (a / 2)⟩ : ℂ)‖ ≤ 1 := by rw [norm_imag, abs_neg]; exact Real.abs_sin_le_one _
    exact close_dense1 A he h4 hL h hq ⟨n1, n2, n2, n1⟩ ⟨m1, m2, m2, m1⟩
  | Y =>
    have n1 : Near val (⟨lib.cos (lib.half x), 0⟩ : Cx F) ⟨Real.cos (a / 2), 0⟩ (80 * ε) := (Near.real c A.zero).mono (by linarith)
    have n2 : Near val (⟨-lib.sin (lib.half x), 0⟩ : Cx F) ⟨-Real.sin (a / 2), 0⟩ (80 * ε) := (Near.real s' A.zero).mono (by linarith)
    have n3 : Near val (⟨lib.sin (lib.half x), 0⟩ : Cx F) ⟨Real.sin (a / 2), 0⟩ (80 * ε) := (Near.real s A.zero).mono (by linarith)
    have m1 : ‖(⟨Real.cos (a / 2), 0⟩ : ℂ)‖ ≤ 1 := by rw [norm_real]; exact Real.abs_cos_le_one _
    have m2 : ‖(⟨-Real.sin (a / 2), 0⟩ : ℂ)‖ ≤ 1 := by rw [norm_real, abs_neg]; exact Real.abs_sin_le_one _
    have m3 : ‖(⟨Real.sin (a / 2), 0⟩ : ℂ)‖ ≤ 1 := by rw [norm_real]; exact Real.abs_sin_le_one _
    exact close_dense1 A he h4 hL h hq ⟨n1, n2, n3, n1⟩ ⟨m1, m2, m3, m1⟩
  | Z =>
    have n1 : Near val (⟨lib.cos (lib.half x), -lib.sin (lib.half x)⟩ : Cx F)
      ⟨Real.cos (a / 2), -Real.sin (a / 2)⟩ (80 * ε) := (Near.parts c s').mono (by linarith)
    have n2 : Near val (⟨lib.cos (lib.half x), lib.sin (lib.half x)⟩ : Cx F)
      ⟨Real.cos (a / 2), Real.sin (a / 2)⟩ (80 * ε) := (Near.parts c s).mono (by linarith)
    have m1 : ‖(⟨Real.cos (a / 2), -Real.sin (a / 2)⟩ : ℂ)‖ ≤ 1 := by
      have := norm_cis' (-(a / 2)); rwa [Real.cos_neg, Real.sin_neg] at this
    exact close_diag A he h4 h hq n1 m1 n2 (norm_cis' _)

end

/-! ## exact arithmetic -/

/-- in exact arithmetic `PRot.updateF` is the update of the fixed gate -/
theorem protUpdateF_fix (L n : Nat) (t : ℝ) (p : PRot) (h : checkWithinBounds p.operands n = .ok ()) :
    p.updateF (R := ℂ) exactLib L n t = (p.fix t).updateF exactLib L 1 n := by
  cases p with
  | axis a o k => cases a <;> rfl
  | pauli g k =>
    unfold PRot.updateF UGate.updateF PRot.fix
    dsimp only
    rw [show checkWithinBounds g.o n = .ok () from h]
    rfl

/-- in exact arithmetic `PRot.updateF` is `PRot.update` -/
theorem protUpdateF_exact (L n : Nat) (t : ℝ) (p : PRot) : p.updateF (R := ℂ) exactLib L n t = p.update L n t := by
  cases h : checkWithinBounds p.operands n with
  | ok u => rw [protUpdateF_fix L n t p h, updateF_exact, rot_update h]
  | error e =>
    cases p with
    | axis a o k =>
      unfold PRot.updateF PRot.update
      dsimp only
      rw [show checkWithinBounds o n = .error e from h]
      rfl
    | pauli g k =>
      unfold PRot.updateF PRot.update
      dsimp only
      rw [show checkWithinBounds g.o n = .error e from h]
      rfl

/-- in exact arithmetic `PRot.launchF` is `PRot.launch` -/
theorem protLaunchF_exact (n : Nat) (t : ℝ) (p : PRot) : p.launchF (R := ℂ) exactLib n t = p.launch n t := by
  cases p with
  | axis a o k => cases a <;> rfl
  | pauli g k =>
    have e : halfC exactLib (-scaleC (k * t) g.p.coef : ℂ) = -(((k * t : ℝ) : ℂ) * g.p.coef) / 2 := by
      apply Complex.ext <;> simp [halfC, scaleC, exactLib]
    unfold PRot.launchF PRot.launch
    dsimp only
    rw [show (castC exactLib g.p.coef : ℂ) = g.p.coef from rfl, show exactLib.cast k * exactLib.cast t = k * t from rfl, e,
      cosC_exact, sinC_exact, phaseM90F_exact]
    rfl

section
variable {F : Type} [_root_.Zero F] [One F] [Add F] [Sub F] [Mul F] [Neg F] {lib : FloatLib F} {val : F → ℝ} {u w η Ω ε : ℝ}

local notation "⟪" x "⟫" => cval val x

omit [One F] [Add F] [Sub F] [Mul F] [Neg F] [_root_.Zero F] in
/-- what is close to the exact launch of a gate is close to its operator -/
theorem close_operator {d : GateDesc} {g : UGate} (hok : DescOK d) (h : d.build = .ok g) {L n : Nat} (hL : LanesOK L) (hn : n < 64)
    (hq : ∀ q ∈ qubitsOf d, q < n) {dev : Device (Cx F)} {dev' : Device ℂ} (e2 : g.updateF exactLib L 1 n = .ok dev')
    (hclose : CloseTo (1 * 2 ^ n) val ε η dev dev') (m : U64 → Cx F) (hm : ∀ j, InState (2 ^ n) j → ‖⟪m j⟫‖ ≤ 4) :
    ∃ m', DRuns (2 ^ n) dev m m' ∧
        √(normSq (2 ^ n) (fun j => ⟪m' j⟫ - operatorOf d (fun j => ⟪m j⟫) j)) ≤
          256 * (ε * √(normSq (2 ^ n) (fun j => ⟪m j⟫)) + η * √((2 ^ n : Nat) : ℝ)) := by
  have hsize : 1 * 2 ^ n ≤ 2 ^ 64 := by rw [Nat.one_mul]; exact pow64 (by omega)
  obtain ⟨hv, ho, hs⟩ := build_valid hok h
  obtain ⟨b1, b2⟩ := build_bounds hs hq
  obtain ⟨m', m'', r1, r2, hb⟩ := hclose m (by rw [Nat.one_mul]; exact hm)
  obtain ⟨dv, hdv, hrun⟩ := update_valid hv hL hn hsize b1 b2
  rw [updateF_exact, hdv] at e2
  injection e2 with e2
  subst e2
  have e3 : m'' = _ := DRuns.unique r2 (hrun _)
  rw [Nat.one_mul] at r1 hb hsize e3
  refine ⟨m', r1, ?_⟩
  have e4 : normSq (2 ^ n) (fun j => ⟪m' j⟫ - operatorOf d (fun j => ⟪m j⟫) j) = normSq (2 ^ n) (fun j => ⟪m' j⟫ - m'' j) := by
    unfold normSq
    refine Finset.sum_congr rfl fun j hj => ?_
    rw [mem_indices hsize] at hj
    have : m'' j = operatorOf d (fun j => ⟪m j⟫) j := by
      rw [e3, ← ho]
      unfold onState
      exact if_pos hj
    simp only [this]
  rw [e4]
  exact hb

theorem upd_pure {R : Type} {o : Operands} {n : Nat} (d : Device R) (h : checkWithinBounds o n = .ok ()) :
    (checkWithinBounds o n >>= fun _ => (pure d : Res (Device R))) = .ok d := by rw [h, ok_bind]; rfl

theorem dense1_zero {R : Type} [Add R] [Mul R] [Cplx R F] (n : Nat) (t c v : U64) (M : M22 R) (dim : Nat) :
    dense1 0 n t c v M dim = .par _ (dense1Scalar t c v M dim) := if_neg fun hh => absurd hh.1 (lt_irrefl 0)

/-- masks of a rotation about an axis -/
theorem axis_masks {a : RotAxis} {t : Nat} {k : ℝ} {cs vs : List Nat} {p : PRot} (h : (RotDesc.axis a t k cs vs).build = .ok p) :
    ∃ o, p = .axis a o k ∧ mkOperands [t] cs vs = .ok o := by
  obtain ⟨o, ho, h⟩ := bind_ok (show (do let o ← mkOperands [t] cs vs; pure (PRot.axis a o k)) = .ok p from h)
  cases h
  exact ⟨o, rfl, ho⟩

theorem paulirot_parts {q : PauliOp} {k : ℝ} {cs vs : List Nat} {p : PRot} (h : (RotDesc.pauli q k cs vs).build = .ok p) :
    ∃ g, p = .pauli g k ∧ mkPauli q cs vs = .ok g := by
  obtain ⟨g, hg, h⟩ := bind_ok (show (do let g ← mkPauli q cs vs; pure (PRot.pauli g k)) = .ok p from h)
  cases h
  exact ⟨g, rfl, hg⟩

theorem paulirot_flip {q : PauliOp} {k : ℝ} {cs vs : List Nat} {p : PRot} {g : PauliGate} (h : (RotDesc.pauli q k cs vs).build = .ok p)
    (hp : p = .pauli g k) {n : Nat} (hn : n < 64) (hq : ∀ q' ∈ qubitsOf ((RotDesc.pauli q k cs vs).at 0), q' < n) :
    FlipOK 1 n g.o.c g.o.v g.p.x := by
  have hb := rot_build h 0
  obtain ⟨hv, -, hs⟩ := build_valid (rot_descOK _ 0) hb
  obtain ⟨ht, hc⟩ := build_bounds hs hq
  rw [hp] at hv ht hc
  obtain ⟨ho, hgt⟩ := hv
  have hmk := mkOperands_self ho
  rw [hgt] at hmk
  exact pauli_flipOK (B := 1) (n := n) hmk (by
    rintro q' (hq' | hq')
    · exact ht q' (by rw [show UGate.ts (PRot.fix 0 (.pauli g k)) = maskToVector g.o.t from rfl, hgt]; exact hq')
    · obtain ⟨b, hb⟩ := mem_controls.2 hq'
      exact hc _ hb) (by rw [Nat.one_mul]; exact pow64 (by omega))

/-- the launch of a rotation on one state stays close to the exact launch -/
theorem prot_close (A : Accurate lib val u w η Ω) (h4 : ε ≤ 1 / 400) {r : RotDesc} {p : PRot} (h : r.build = .ok p) {t : ℝ}
    (hr : RotBounded u w η ε r t) {L n : Nat} (hL : LanesOK L) (hn : n < 64) (hq : ∀ q ∈ qubitsOf (r.at 0), q < n) :
    ∃ (d : Device (Cx F)) (d' : Device ℂ), p.updateF lib L n t = .ok d ∧ (p.fix t).updateF exactLib L 1 n = .ok d' ∧
      CloseTo (1 * 2 ^ n) val ε η d d' := by
  have hb := rot_bounds h hn hq
  obtain ⟨f1, f2, f3, f4, f5⟩ := hr
  obtain ⟨c1, c2⟩ := prod_angle (lib := lib) A f1 f2 f3 f4 h4
  have hε := prod_err A f4
  have hsize : 1 * 2 ^ n ≤ 2 ^ 64 := by rw [Nat.one_mul]; exact pow64 (by omega)
  rw [← protUpdateF_fix L n t p hb]
  cases r with
  | axis a q k cs vs =>
    obtain ⟨o, rfl, ho⟩ := axis_masks h
    have ctx := ctx_of ho hb hsize
    exact ⟨_, _, upd_pure _ hb, upd_pure _ hb, close_axis A (eps_ge A hε) h4 hL ctx.masks (isBit_of ho) f3 c1 c2 a⟩
  | pauli q k cs vs =>
    obtain ⟨g, rfl, hg⟩ := paulirot_parts h
    have e : g.p = q := mkPauli_op hg
    rw [← e] at f5
    exact ⟨_, _, upd_pure _ hb, upd_pure _ hb, close_pauliRot A f3 f5.2 f5.1 hε h4 c1 c2 (paulirot_flip h rfl hn hq)⟩

/-- the launch of one team of a rotation on a batch stays close to the exact launch on one state -/
theorem protLaunch_close (A : Accurate lib val u w η Ω) (h4 : ε ≤ 1 / 400) {r : RotDesc} {p : PRot} (h : r.build = .ok p) {t : ℝ}
    (hr : RotBounded u w η ε r t) {n : Nat} (hn : n < 64) (hq : ∀ q ∈ qubitsOf (r.at 0), q < n) :
    ∃ d' : Device ℂ, (p.fix t).updateF exactLib 0 1 n = .ok d' ∧
      CloseTo (1 * 2 ^ n) val ε η (.par _ (p.launchF (R := Cx F) lib n t).pool) d' := by
  have hb := rot_bounds h hn hq
  obtain ⟨f1, f2, f3, f4, f5⟩ := hr
  have hε := prod_err A f4
  have hsize : 1 * 2 ^ n ≤ 2 ^ 64 := by rw [Nat.one_mul]; exact pow64 (by omega)
  rw [← protUpdateF_fix 0 n t p hb]
  cases r with
  | axis a q k cs vs =>
    obtain ⟨o, rfl, ho⟩ := axis_masks h
    have ctx := ctx_of ho hb hsize
    obtain ⟨c1, c2⟩ := prod_angle (lib := lib) (k := t) (t := k) A f2 f1 (by rw [mul_comm]; exact f3)
      (by rw [mul_comm (1 + |t|)]; exact f4) h4
    rw [mul_comm t k] at c1
    refine ⟨_, upd_pure _ hb, ?_⟩
    have key := close_axis (L := 0) A (eps_ge A hε) h4 (.inl rfl) ctx.masks (isBit_of ho) f3 c1 c2 a
    have e : (.par _ (PRot.launchF (R := Cx F) lib n t (.axis a o k)).pool : Device (Cx F)) =
        rotKernelF lib 0 n o (1 * 2 ^ n) (lib.cast t * lib.cast k) a := by
      rw [Nat.one_mul]
      cases a with
      | X => exact (dense1_zero _ _ _ _ _ _).symm
      | Y => exact (dense1_zero _ _ _ _ _ _).symm
      | Z => rfl
    rw [e]
    exact key
  | pauli q k cs vs =>
    obtain ⟨g, rfl, hg⟩ := paulirot_parts h
    have e : g.p = q := mkPauli_op hg
    rw [← e] at f5
    obtain ⟨c1, c2⟩ := prod_angle (lib := lib) A f1 f2 f3 f4 h4
    refine ⟨_, upd_pure _ hb, ?_⟩
    obtain ⟨-, hcos, hsin⟩ := rot_near A f3 f5.2 f5.1 hε h4 c1 c2
    obtain ⟨e1, e2⟩ := cos_neg_half (k * t) g.p.coef f5.1
    have key := close_pauliTrig (B := 1) (z := g.p.z) A (eps_ge A hε) h4 hcos hsin (paulirot_flip h rfl hn hq)
    have eL : (.par _ (PRot.launchF (R := Cx F) lib n t (.pauli g k)).pool : Device (Cx F)) =
        if g.p.x = 0 then .par _ (pauliRotDiag g.o.c g.o.v g.p.z
          (cosC lib (halfC lib (-scaleC (lib.cast k * lib.cast t) (castC lib g.p.coef : Cx F))) - Cplx.ofParts 0 1 *
            sinC lib (halfC lib (-scaleC (lib.cast k * lib.cast t) (castC lib g.p.coef : Cx F))))
          (cosC lib (halfC lib (-scaleC (lib.cast k * lib.cast t) (castC lib g.p.coef : Cx F))) + Cplx.ofParts 0 1 *
            sinC lib (halfC lib (-scaleC (lib.cast k * lib.cast t) (castC lib g.p.coef : Cx F)))) (1 * 2 ^ n))
        else .par _ (pauliRotFlip (Cplx.ofParts 0 1) phaseM90F g.o.c g.o.v g.p.x g.p.z
          (cosC lib (halfC lib (-scaleC (lib.cast k * lib.cast t) (castC lib g.p.coef : Cx F))))
          (sinC lib (halfC lib (-scaleC (lib.cast k * lib.cast t) (castC lib g.p.coef : Cx F)))) (1 * 2 ^ n)) := by
      rw [Nat.one_mul]
      unfold PRot.launchF
      exact apply_ite (fun l : Launch (Cx F) => Device.par l.N l.pool) _ _ _
    have eR : (applyPauliRotationF exactLib g.o.c g.o.v g.p.x g.p.z (castC exactLib g.p.coef : ℂ)
        (exactLib.cast k * exactLib.cast t) (1 * 2 ^ n)) =
        if g.p.x = 0 then .par _ (pauliRotDiag g.o.c g.o.v g.p.z
          ((⟨Real.cos (-(k * t * g.p.coef.re / 2)), 0⟩ : ℂ) - Cplx.ofParts 0 1 * ⟨Real.sin (-(k * t * g.p.coef.re / 2)), 0⟩)
          (⟨Real.cos (-(k * t * g.p.coef.re / 2)), 0⟩ + Cplx.ofParts 0 1 * ⟨Real.sin (-(k * t * g.p.coef.re / 2)), 0⟩) (1 * 2 ^ n))
        else .par _ (pauliRotFlip (Cplx.ofParts 0 1) phaseM90F g.o.c g.o.v g.p.x g.p.z (⟨Real.cos (-(k * t * g.p.coef.re / 2)), 0⟩ : ℂ)
          ⟨Real.sin (-(k * t * g.p.coef.re / 2)), 0⟩ (1 * 2 ^ n)) := by
      have ec : (castC exactLib g.p.coef : ℂ) = g.p.coef := rfl
      unfold applyPauliRotationF
      rw [show exactLib.cast k * exactLib.cast t = k * t from rfl]
      simp only [ec, e1, e2]
    rw [eL, eR]
    exact key

end

/-! ## any arithmetic -/

section
variable {F : Type} [_root_.Zero F] [One F] [Add F] [Sub F] [Mul F] [Neg F] (lib : FloatLib F)

open Classical in
/-- the library with `x` for the conversion of `a` -/
noncomputable def libWith (x : F) (a : ℝ) : FloatLib F := { lib with cast := fun s => if s = a then x else lib.cast s }

/-- the angle that stands for the product -/
noncomputable def freshAngle (z : ℂ) : ℝ := |z.re| + |z.im| + 1

theorem fresh_re (z : ℂ) : z.re ≠ freshAngle z := by
  have := le_abs_self z.re
  have := abs_nonneg z.im
  unfold freshAngle
  intro h
  linarith

theorem fresh_im (z : ℂ) : z.im ≠ freshAngle z := by
  have := le_abs_self z.im
  have := abs_nonneg z.re
  unfold freshAngle
  intro h
  linarith

/-- the gate without parameter that launches the same kernel in the library `libWith` -/
noncomputable def _root_.Verif.Model.PRot.stand : PRot → UGate
  | .axis a o _ => .one (a.gate1 1) o
  | .pauli g _ => .pauliRot g (freshAngle g.p.coef)

/-- the library in which it does so -/
noncomputable def _root_.Verif.Model.PRot.standLib (t : ℝ) : PRot → FloatLib F
  | .axis _ _ k => libWith lib (lib.cast k * lib.cast t) 1
  | .pauli g k => libWith lib (lib.cast k * lib.cast t) (freshAngle g.p.coef)

theorem prot_stand (L n : Nat) (t : ℝ) (p : PRot) (h : checkWithinBounds p.operands n = .ok ()) :
    p.updateF (R := Cx F) lib L n t = p.stand.updateF (p.standLib lib t) L 1 n := by
  cases p with
  | axis a o k =>
    unfold PRot.updateF UGate.updateF PRot.stand PRot.standLib
    have e : (libWith lib (lib.cast k * lib.cast t) 1).cast 1 = lib.cast k * lib.cast t := if_pos rfl
    cases a <;> (simp only [RotAxis.gate1, gate1KernelF, e]; rfl)
  | pauli g k =>
    unfold PRot.updateF UGate.updateF PRot.stand PRot.standLib
    dsimp only
    rw [show checkWithinBounds g.o n = .ok () from h]
    have e : (libWith lib (lib.cast k * lib.cast t) (freshAngle g.p.coef)).cast (freshAngle g.p.coef) = lib.cast k * lib.cast t := if_pos rfl
    have e1 : (castC (libWith lib (lib.cast k * lib.cast t) (freshAngle g.p.coef)) g.p.coef : Cx F) = castC lib g.p.coef := by
      show (⟨_, _⟩ : Cx F) = ⟨_, _⟩
      congr 1
      · exact if_neg (fresh_re _)
      · exact if_neg (fresh_im _)
    rw [e, e1]
    rfl

theorem stand_valid {r : RotDesc} {p : PRot} (h : r.build = .ok p) {n : Nat} (hq : ∀ q ∈ qubitsOf (r.at 0), q < n) :
    Valid p.stand ∧ (∀ q ∈ UGate.ts p.stand, q < n) ∧ ∀ c ∈ UGate.cs p.stand, c.1 < n := by
  have hb := rot_build h 0
  obtain ⟨hv, -, hs⟩ := build_valid (rot_descOK r 0) hb
  obtain ⟨ht, hc⟩ := build_bounds hs hq
  cases p with
  | axis a o k => exact ⟨hv, ht, hc⟩
  | pauli g k => exact ⟨hv, ht, hc⟩

/-- in any arithmetic a rotation has an outcome -/
theorem prot_total {r : RotDesc} {p : PRot} (h : r.build = .ok p) {L n : Nat} (hL : LanesOK L) (hn : n < 64)
    (hq : ∀ q ∈ qubitsOf (r.at 0), q < n) (t : ℝ) :
    ∃ d : Device (Cx F), p.updateF lib L n t = .ok d ∧ ∀ m, ∃ m', DRuns (1 * 2 ^ n) d m m' := by
  obtain ⟨hv, ht, hc⟩ := stand_valid h hq
  rw [prot_stand lib L n t p (rot_bounds h hn hq)]
  exact updateF_total (p.standLib lib t) hv hL hn (by rw [Nat.one_mul]; exact pow64 (by omega)) ht hc

theorem prot_lanes (H : SignLaws F) {r : RotDesc} {p : PRot} (h : r.build = .ok p) {L L' n : Nat} (hL : LanesOK L) (hL' : LanesOK L')
    (hn : n < 64) (hq : ∀ q ∈ qubitsOf (r.at 0), q < n) (t : ℝ) {d : Device (Cx F)} (hd : p.updateF lib L n t = .ok d) :
    ∃ d', p.updateF lib L' n t = .ok d' ∧ SameRuns (1 * 2 ^ n) d d' := by
  obtain ⟨hv, ht, hc⟩ := stand_valid h hq
  rw [prot_stand lib L n t p (rot_bounds h hn hq)] at hd
  rw [prot_stand lib L' n t p (rot_bounds h hn hq)]
  exact updateF_lanes H _ hv hL hL' (by rw [Nat.one_mul]; exact pow64 (by omega)) hd

/-- in any arithmetic the work of a team has an outcome -/
theorem protLaunch_total {r : RotDesc} {p : PRot} (h : r.build = .ok p) {n : Nat} (hn : n < 64)
    (hq : ∀ q ∈ qubitsOf (r.at 0), q < n) (t : ℝ) (m : U64 → Cx F) :
    ∃ m', Runs (InState (2 ^ n)) (p.launchF (R := Cx F) lib n t).pool m m' := by
  have hb := rot_bounds h hn hq
  have hsize : 1 * 2 ^ n ≤ 2 ^ 64 := by rw [Nat.one_mul]; exact pow64 (by omega)
  cases r with
  | axis a q k cs vs =>
    obtain ⟨o, rfl, ho⟩ := axis_masks h
    have ctx := ctx_of ho hb hsize
    cases a with
    | X =>
      have := dense1_any (B := 1) (L := 0) (.inl rfl) ctx.masks (isBit_of ho) (rxMatF (R := Cx F) lib (lib.cast t * lib.cast k)) m
      rw [dense1_zero, Nat.one_mul] at this
      exact ⟨_, this⟩
    | Y =>
      have := dense1_any (B := 1) (L := 0) (.inl rfl) ctx.masks (isBit_of ho) (ryMatF (R := Cx F) lib (lib.cast t * lib.cast k)) m
      rw [dense1_zero, Nat.one_mul] at this
      exact ⟨_, this⟩
    | Z =>
      have := diagGate_any (B := 1) ctx.masks (isBit_of ho) (rzDiagF (R := Cx F) lib (lib.cast t * lib.cast k)).1
        (rzDiagF (R := Cx F) lib (lib.cast t * lib.cast k)).2 m
      rw [Nat.one_mul] at this
      exact ⟨_, this⟩
  | pauli q k cs vs =>
    obtain ⟨g, rfl, hg⟩ := paulirot_parts h
    have hf := paulirot_flip h rfl hn hq
    have key : ∀ (P : Prop) [Decidable P] (a b : Launch (Cx F)), (P → ∃ m', Runs (InState (2 ^ n)) a.pool m m') →
        (¬ P → ∃ m', Runs (InState (2 ^ n)) b.pool m m') → ∃ m', Runs (InState (2 ^ n)) (if P then a else b).pool m m' := by
      intro P _ a b h1 h2
      by_cases hP : P
      · rw [if_pos hP]; exact h1 hP
      · rw [if_neg hP]; exact h2 hP
    refine key _ _ _ (fun hx => ?_) (fun hx => ?_)
    · rw [hx] at hf
      have := pauliRotDiag_any (B := 1) hf.masks0 g.p.z (cosC lib (halfC lib (-scaleC (lib.cast k * lib.cast t) (castC lib g.p.coef : Cx F))) - Cplx.ofParts 0 1 *
            sinC lib (halfC lib (-scaleC (lib.cast k * lib.cast t) (castC lib g.p.coef : Cx F))))
          (cosC lib (halfC lib (-scaleC (lib.cast k * lib.cast t) (castC lib g.p.coef : Cx F))) + Cplx.ofParts 0 1 *
            sinC lib (halfC lib (-scaleC (lib.cast k * lib.cast t) (castC lib g.p.coef : Cx F)))) m
      rw [Nat.one_mul] at this
      exact ⟨_, this⟩
    · have := pauliRotFlip_any (B := 1) hf hx (Cplx.ofParts 0 1) phaseM90F g.p.z
        (cosC lib (halfC lib (-scaleC (lib.cast k * lib.cast t) (castC lib g.p.coef : Cx F))))
        (sinC lib (halfC lib (-scaleC (lib.cast k * lib.cast t) (castC lib g.p.coef : Cx F)))) m
      rw [Nat.one_mul] at this
      exact ⟨_, this⟩

end

/-! ## circuits -/

section
variable {F : Type} [_root_.Zero F] [One F] [Add F] [Sub F] [Mul F] [Neg F] {lib : FloatLib F} {val : F → ℝ} {u w η Ω ε : ℝ}

local notation "⟪" x "⟫" => cval val x

theorem itemsRunF_unique {L n : Nat} {params : String → Option ℝ} {gs : List (UGate ⊕ PRot × String)} {m m₁ m₂ : U64 → Cx F}
    (h₁ : ItemsRunF lib L n params gs m m₁) (h₂ : ItemsRunF lib L n params gs m m₂) : m₁ = m₂ := by
  induction gs generalizing m with
  | nil => rw [h₁, h₂]
  | cons g gs ih =>
    cases g with
    | inl g =>
      obtain ⟨d, a, hd, hr, h⟩ := h₁
      obtain ⟨d', a', hd', hr', h'⟩ := h₂
      rw [hd] at hd'
      injection hd' with hd'
      subst hd'
      obtain rfl := DRuns.unique hr hr'
      exact ih h h'
    | inr rk =>
      obtain ⟨r, key⟩ := rk
      obtain ⟨t, d, a, ht, hd, hr, h⟩ := h₁
      obtain ⟨t', d', a', ht', hd', hr', h'⟩ := h₂
      rw [ht] at ht'
      injection ht' with ht'
      subst ht'
      rw [hd] at hd'
      injection hd' with hd'
      subst hd'
      obtain rfl := DRuns.unique hr hr'
      exact ih h h'

/-- the object of a line of a circuit -/
def _root_.Verif.Spec.FLine.Built : FLine → UGate ⊕ PRot × String → Prop
  | .gate d, .inl g => d.build = .ok g
  | .rot r key, .inr (p, key') => r.build = .ok p ∧ key' = key
  | _, _ => False

variable (val) in
/-- a step of a circuit in floating-point arithmetic: of norm-preserving operator `d`, and close to it -/
structure StepClose (n : Nat) (E0 : ℝ → ℝ) (S : (U64 → Cx F) → (U64 → Cx F) → Prop) (d : GateDesc) : Prop where
  norm : ∀ ψ, ‖vec n (operatorOf d ψ)‖ = ‖vec n ψ‖
  close : ∀ m : U64 → Cx F, (∀ j, InState (2 ^ n) j → ‖⟪m j⟫‖ ≤ 4) →
    ∃ m', S m m' ∧ ‖vec n (fun j => ⟪m' j⟫) - vec n (operatorOf d fun j => ⟪m j⟫)‖ ≤ E0 ‖vec n fun j => ⟪m j⟫‖

/-- steps one after another -/
def RunSteps (S : List ((U64 → Cx F) → (U64 → Cx F) → Prop)) (m m' : U64 → Cx F) : Prop :=
  match S with
  | [] => m' = m
  | s :: S => ∃ m₁, s m m₁ ∧ RunSteps S m₁ m'

omit [_root_.Zero F] [One F] [Add F] [Sub F] [Mul F] [Neg F] in
theorem steps_close {n : Nat} {E0 : ℝ → ℝ} {E : ℝ} (hE0 : 0 ≤ E) (hE : ∀ x, x ≤ 2 → E0 x ≤ E) {S : List ((U64 → Cx F) → (U64 → Cx F) → Prop)}
    {ds : List GateDesc} (h : List.Forall₂ (StepClose val n E0) S ds) (m : U64 → Cx F) {φ : U64 → ℂ} {e : ℝ} (he0 : 0 ≤ e)
    (he : ‖vec n (fun j => ⟪m j⟫) - vec n φ‖ ≤ e) (hφ : ‖vec n φ‖ ≤ 1) (hk : e + ds.length * E ≤ 1) :
    ∃ m', RunSteps S m m' ∧ ‖vec n (fun j => ⟪m' j⟫) - vec n (ds.foldl (fun ψ d => operatorOf d ψ) φ)‖ ≤ e + ds.length * E := by
  induction h generalizing m φ e with
  | nil => exact ⟨m, rfl, by simpa using he⟩
  | @cons s d S ds hsd _ ih =>
    rw [List.length_cons] at hk ⊢
    push_cast at hk ⊢
    have hgs : (0 : ℝ) ≤ ds.length * E := mul_nonneg (Nat.cast_nonneg _) hE0
    have hx : ‖vec n (fun j => ⟪m j⟫)‖ ≤ 2 := by
      have := norm_add_le (vec n (fun j => ⟪m j⟫) - vec n φ) (vec n φ)
      rw [sub_add_cancel] at this
      linarith
    obtain ⟨m₁, hrun, hm₁⟩ := hsd.close m (fun j hj => le_trans (amp_le_norm (fun j => ⟪m j⟫) hj) (by linarith))
    have h1 := le_trans hm₁ (hE _ hx)
    have h2 : ‖vec n (operatorOf d fun j => ⟪m j⟫) - vec n (operatorOf d φ)‖ ≤ e := by
      rw [← vec_sub, ← operatorOf_sub, hsd.norm, vec_sub]
      exact he
    have h3 : ‖vec n (fun j => ⟪m₁ j⟫) - vec n (operatorOf d φ)‖ ≤ e + E := by
      have := norm_add_le (vec n (fun j => ⟪m₁ j⟫) - vec n (operatorOf d fun j => ⟪m j⟫))
        (vec n (operatorOf d fun j => ⟪m j⟫) - vec n (operatorOf d φ))
      rw [sub_add_sub_cancel] at this
      linarith
    obtain ⟨m', hm', hbound⟩ := ih m₁ (φ := operatorOf d φ) (e := e + E) (by linarith) h3 (by rw [hsd.norm]; exact hφ) (by linarith)
    refine ⟨m', ⟨m₁, hrun, hm'⟩, ?_⟩
    rw [List.foldl_cons]
    linarith

end

end Verif.Proofs
