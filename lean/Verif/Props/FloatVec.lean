import Verif.Proofs.FloatVec
import Verif.Props.Reductions
import Verif.Props.FloatParam
import Verif.Spec.Binary16

/-! # C93: normalisation and linear combination of states in floating-point arithmetic

`NormalizesF`, `BatchNormalizesF`, `multiplyCoefF` and `AddsWithCoefF` are in `Model/FloatVec.lean`.  The specification is the exact
vector operation on the numbers meant by the amplitudes and the Euclidean norm (`stateNorm`).
-/

namespace Verif.Props
open Verif Verif.Spec Verif.Model Verif.Proofs
attribute [-simp] BitVec.getLsbD_eq_getElem

section
variable {F : Type} [_root_.Zero F] [One F] [Add F] [Sub F] [Mul F] [Neg F] {lib : FloatLib F} {E : DivLib F} {val : F → ℝ} {u w η Ω : ℝ}

/-- The conditions under which a state can be normalised: at most 63 qubits, amplitudes of at most 4, a squared norm `P` that is not
zero and is added up with a relative error of at most `ρ ≤ 1/4`, no overflow. -/
structure Normalizable (val : F → ℝ) (u η Ω ρ : ℝ) (n : Nat) (m : U64 → Cx F) : Prop where
  qubits : n ≤ 63
  amps : ∀ j : U64, j.toNat < 2 ^ n → ‖cval val (m j)‖ ≤ 4
  pos : 0 < normSq (2 ^ n) fun j => cval val (m j)
  range : ((1 : ℝ) + u) ^ (2 ^ n + 2) * (normSq (2 ^ n) (fun j => cval val (m j)) + 2 * ((2 ^ n : ℕ) : ℝ) * η) ≤ Ω
  twice : 2 * normSq (2 ^ n) (fun j => cval val (m j)) ≤ Ω
  rel : sumErr u η (2 ^ n) (normSq (2 ^ n) fun j => cval val (m j)) ≤ ρ * normSq (2 ^ n) fun j => cval val (m j)
  small : ρ ≤ 1 / 4

/-- `m'` is the normalised `m` up to an error of `e` -/
def NearUnit (val : F → ℝ) (n : Nat) (m m' : U64 → Cx F) (e : ℝ) : Prop :=
  stateNorm (2 ^ n) (fun j => cval val (m' j) - cval val (m j) / ((stateNorm (2 ^ n) fun j => cval val (m j) : ℝ) : ℂ)) ≤ e ∧
    |stateNorm (2 ^ n) (fun j => cval val (m' j)) - 1| ≤ e

theorem normalize_sum (A : Accurate lib val u w η Ω) (Z : AddZero val Ω) (hu : u ≤ 1 / 64) (hη : η ≤ 1 / 64) {ρ : ℝ} {n : Nat} {m : U64 → Cx F}
    (h : Normalizable val u η Ω ρ n m) : (∃ s, SquaredNormF n m (.ok s)) ∧
      ∀ s, SquaredNormF n m (.ok s) → |val s - normSq (2 ^ n) fun j => cval val (m j)| ≤ ρ * normSq (2 ^ n) fun j => cval val (m j) := by
  obtain ⟨⟨r, hr⟩, h2⟩ := C72_squared_norm A Z hu hη h.qubits h.amps rfl h.range
  constructor
  · obtain ⟨s, rfl, -⟩ := h2 r hr
    exact ⟨s, hr⟩
  · intro s hs
    obtain ⟨s', e, h3⟩ := h2 _ hs
    cases e
    exact h3.trans h.rel

theorem rho_nonneg {ρ : ℝ} {n : Nat} {m : U64 → Cx F} (hu0 : 0 ≤ u) (hη0 : 0 ≤ η) (h : Normalizable val u η Ω ρ n m) : 0 ≤ ρ := by
  have h1 := sumErr_nonneg hu0 hη0 (2 ^ n) h.pos.le
  have h2 := h1.trans h.rel
  by_contra hc
  have : ρ * normSq (2 ^ n) (fun j => cval val (m j)) < 0 := mul_neg_of_neg_of_pos (by linarith) h.pos
  linarith

theorem nearUnit_of {n : Nat} (hn : n ≤ 63) {m m' : U64 → Cx F} {e : ℝ} (h0 : 0 < normSq (2 ^ n) fun j => cval val (m j))
    (h : stateNorm (2 ^ n) (fun j => cval val (m' j) - cval val (m j) / ((stateNorm (2 ^ n) fun j => cval val (m j) : ℝ) : ℂ)) ≤ e) :
    NearUnit val n m m' e := by
  refine ⟨h, ?_⟩
  have hT : 0 < √(normSq (2 ^ n) fun j => cval val (m j)) := Real.sqrt_pos.2 h0
  unfold stateNorm at h ⊢
  have hnorm := (sqrt_normSq hn fun j => cval val (m j)).symm
  rw [sqrt_normSq hn, vec_sub] at h
  rw [sqrt_normSq hn]
  generalize √(normSq (2 ^ n) fun j => cval val (m j)) = T at *
  have e1 : ‖vec n fun j => cval val (m j) / (T : ℂ)‖ = 1 := by
    have e : (fun j => cval val (m j) / (T : ℂ)) = fun j => ((T⁻¹ : ℝ) : ℂ) * cval val (m j) := by
      funext j; rw [div_eq_inv_mul]; push_cast; rfl
    rw [e, vec_smul, norm_smul, hnorm, Complex.norm_real, Real.norm_of_nonneg (by positivity), inv_mul_cancel₀ hT.ne']
  rw [← e1]
  exact (abs_norm_sub_norm_le _ _).trans h

/-- **C93, normalisation.** `normalize()` leaves the normalised state up to `4 ρ + 12 u + 2 η √dim`, whatever the order of the additions,
hence a state whose norm is one up to this number. -/
theorem C93_normalize_partial (A : Accurate lib val u w η Ω) (Z : AddZero val Ω) (hD : DivAccurate E val u η Ω) (hu : u ≤ 1 / 64) (hη : η ≤ 1 / 64)
    {ρ : ℝ} {n : Nat} {m : U64 → Cx F} (h : Normalizable val u η Ω ρ n m) :
    (∃ m', NormalizesF E n m m') ∧
    ∀ m', NormalizesF E n m m' → NearUnit val n m m' (4 * ρ + 12 * u + 2 * η * √((2 ^ n : Nat) : ℝ)) := by
  obtain ⟨⟨s0, hs0⟩, h2⟩ := normalize_sum A Z hu hη h
  have key : ∀ s, SquaredNormF n m (.ok s) → _ := fun s hs =>
    divideF_err hD A.u_nonneg A.eta_nonneg hu h.qubits h.amps rfl h.pos h.twice (rho_nonneg A.u_nonneg A.eta_nonneg h) h.small (h2 s hs)
  constructor
  · obtain ⟨m', h3, -⟩ := key s0 hs0
    exact ⟨m', s0, hs0, h3⟩
  · rintro m' ⟨s, hs, hr⟩
    obtain ⟨m'', h3, h4⟩ := key s hs
    cases DRuns.unique hr h3
    exact nearUnit_of h.qubits h.pos h4

/-- **C93, normalisation of batches.** Every state of the batch is normalised as a single state is. -/
theorem C93_normalize_batched_partial (A : Accurate lib val u w η Ω) (Z : AddZero val Ω) (hD : DivAccurate E val u η Ω) (hu : u ≤ 1 / 64)
    (hη : η ≤ 1 / 64) {ρ : ℝ} {B n : Nat} {m : Nat → U64 → Cx F} (h : ∀ b, b < B → Normalizable val u η Ω ρ n (m b)) :
    (∃ m', BatchNormalizesF E B n m m') ∧
    ∀ m', BatchNormalizesF E B n m m' → ∀ b, b < B →
      NormalizesF E n (m b) (m' b) ∧ NearUnit val n (m b) (m' b) (4 * ρ + 12 * u + 2 * η * √((2 ^ n : Nat) : ℝ)) := by
  have key : ∀ (b : Fin B) s, SquaredNormF n (m b) (.ok s) → ∃ m', DRuns (2 ^ n) (.par _ (divideF E n s)) (m b) m' := fun b s hs =>
    let h := h b b.isLt
    let ⟨m', h3, _⟩ := divideF_err hD A.u_nonneg A.eta_nonneg hu h.qubits h.amps rfl h.pos h.twice (rho_nonneg A.u_nonneg A.eta_nonneg h)
      h.small ((normalize_sum A Z hu hη h).2 s hs)
    ⟨m', h3⟩
  have runs : ∀ s : Fin B → F, (∀ b : Fin B, SquaredNormF n (m b) (.ok (s b))) → ∃ m' : Nat → U64 → Cx F,
      Runs (InBatch B (2 ^ n)) (slotPool fun b : Fin B => ⟨_, divideF E n (s b)⟩) (fun p => m p.1 p.2) (fun p => m' p.1 p.2) ∧
      ∀ b : Fin B, DRuns (2 ^ n) (.par _ (divideF E n (s b))) (m b) (m' b) := by
    intro s hs
    choose f hf using fun b => key b (s b) (hs b)
    exact ⟨fun b => if hb : b < B then f ⟨b, hb⟩ else m b,
      slots_run (m' := fun b => if hb : b < B then f ⟨b, hb⟩ else m b) le_rfl (fun b => by rw [dif_pos b.isLt]; exact hf b) (fun b hb => dif_neg (by omega)),
      fun b => by dsimp only; rw [dif_pos b.isLt]; exact hf b⟩
  constructor
  · choose s hs using fun b : Fin B => (normalize_sum A Z hu hη (h b b.isLt)).1
    obtain ⟨m', h1, -⟩ := runs s hs
    exact ⟨m', s, hs, h1⟩
  · rintro m' ⟨s, hs, hr⟩ b hb
    obtain ⟨m'', h1, h2⟩ := runs s hs
    have e := Runs.unique hr h1
    have eb : m' b = m'' b := funext fun j => congrFun e (b, j)
    have hN : NormalizesF E n (m b) (m' b) := ⟨s ⟨b, hb⟩, hs ⟨b, hb⟩, by rw [eb]; exact h2 ⟨b, hb⟩⟩
    exact ⟨hN, (C93_normalize_partial A Z hD hu hη (h b hb)).2 _ hN⟩

/-- **C93, multiplication.** `multiply_coef(c)` with a coefficient of at most one. -/
theorem C93_multiply (A : Accurate lib val u w η Ω) (hu : u ≤ 1 / 64) (hη : η ≤ 1 / 64) {n : Nat} (hn : n ≤ 63) {m : U64 → Cx F}
    (hm : ∀ j : U64, j.toNat < 2 ^ n → ‖cval val (m j)‖ ≤ 4) {c : ℂ} (hc : ‖c‖ ≤ 1) :
    ∃ m', DRuns (2 ^ n) (multiplyCoefF lib 1 n c) m m' ∧ (∀ m'', DRuns (2 ^ n) (multiplyCoefF lib 1 n c) m m'' → m'' = m') ∧
      stateNorm (2 ^ n) (fun j => cval val (m' j) - c * cval val (m j)) ≤
        9 * (u + η) * stateNorm (2 ^ n) (fun j => cval val (m j)) + 5 * η * √((2 ^ n : Nat) : ℝ) := by
  obtain ⟨m', h1, h2⟩ := multiplyCoefF_err A hu hη hn hm hc
  exact ⟨m', h1, fun m'' h'' => DRuns.unique h'' h1, h2⟩

/-- **C93, addition.** `add_state_vector_with_coef(c, φ)` with a coefficient of at most one and a state of as many qubits or more. -/
theorem C93_add (A : Accurate lib val u w η Ω) (hu : u ≤ 1 / 64) (hη : η ≤ 1 / 64) {n n' : Nat} (hn : n ≤ 63) (hnn : n ≤ n')
    {m φ : U64 → Cx F} (hm : ∀ j : U64, j.toNat < 2 ^ n → ‖cval val (m j)‖ ≤ 4) (hφ : ∀ j : U64, j.toNat < 2 ^ n → ‖cval val (φ j)‖ ≤ 4)
    {c : ℂ} (hc : ‖c‖ ≤ 1) :
    ∃ m', AddsWithCoefF lib n n' c m φ m' ∧ (∀ m'', AddsWithCoefF lib n n' c m φ m'' → m'' = m') ∧
      stateNorm (2 ^ n) (fun j => cval val (m' j) - (cval val (m j) + c * cval val (φ j))) ≤
        12 * (u + η) * (stateNorm (2 ^ n) (fun j => cval val (m j)) + stateNorm (2 ^ n) (fun j => cval val (φ j))) +
          6 * η * √((2 ^ n : Nat) : ℝ) := by
  obtain ⟨m', h1, h2⟩ := addWithCoefF_err A hu hη hn hnn hm hφ hc
  refine ⟨m', h1, fun m'' h'' => ?_, h2⟩
  have e := Runs.unique h'' h1
  funext j
  exact congrFun e (false, j)

/-- the gates of a circuit with parameters keep the norm -/
theorem lines_norm {ls : List FLine} {gs : List (UGate ⊕ PRot × String)} (hb : List.Forall₂ FLine.Built ls gs)
    {params : String → Option ℝ} {ds : List GateDesc} (hd : List.Forall₂ (FLine.Is params) ls ds) {ε K : ℝ}
    (hls : ∀ l ∈ ls, LineBounded u w η Ω ε K params l) {n : Nat} (hn : n ≤ 63) (hq : ∀ d ∈ ds, ∀ q ∈ qubitsOf d, q < n) (ψ : U64 → ℂ) :
    ‖vec n (exactRun ds ψ)‖ = ‖vec n ψ‖ := by
  induction hb generalizing ds ψ with
  | nil => cases hd; rfl
  | @cons l g ls gs hlg hb' ih =>
    cases hd with
    | @cons _ d _ ds hld hds' =>
    have h1 := ih hds' (fun l h => hls l (List.mem_cons_of_mem _ h)) (fun d h => hq d (List.mem_cons_of_mem _ h)) (operatorOf d ψ)
    rw [show exactRun (d :: ds) ψ = exactRun ds (operatorOf d ψ) from rfl, h1]
    have hl := hls l List.mem_cons_self
    have hqd := hq d List.mem_cons_self
    cases l with
    | gate d' =>
      obtain rfl : d = d' := hld
      cases g with
      | inr rk => exact hlg.elim
      | inl g => exact vec_operator_norm hl.1.args hl.2.1 hlg hn hqd ψ
    | rot r key =>
      obtain ⟨t, ht, rfl⟩ := hld
      cases g with
      | inl g => exact hlg.elim
      | inr rk =>
        obtain ⟨p, key'⟩ := rk
        obtain ⟨hbp, rfl⟩ := hlg
        refine vec_operator_norm (rot_descOK r t) ?_ (rot_build hbp t) hn hqd ψ
        cases r with
        | axis a q k cs vs => rw [rot_at_axis]; cases a <;> exact ⟨fun e => (by cases e), fun e => (by cases e)⟩
        | pauli q k cs vs => exact (hl t ht).coef.1

/-- the normalised result of a circuit -/
theorem after_circuit (A : Accurate lib val u w η Ω) (Z : AddZero val Ω) (hD : DivAccurate E val u η Ω) {ε : ℝ} (hε : u + η + w ≤ ε)
    (h4 : ε ≤ 1 / 400) {ls : List FLine} {gs : List (UGate ⊕ PRot × String)} (hb : List.Forall₂ FLine.Built ls gs)
    {params : String → Option ℝ} {ds : List GateDesc} (hd : List.Forall₂ (FLine.Is params) ls ds) {K : ℝ} (hK1 : 1 ≤ K)
    (hls : ∀ l ∈ ls, LineBounded u w η Ω ε K params l) {L n : Nat} (hf : Fits L 1 n) (hq : ∀ d ∈ ds, ∀ q ∈ qubitsOf d, q < n)
    (hKε : K * ε ≤ 1 / 400) (hKΩ : 16 * K ≤ Ω) {e : ℝ} (hE : e = 256 * K ^ 2 * (2 * ε + η * √((2 ^ n : Nat) : ℝ))) (hk : ls.length * e ≤ 1)
    (m : U64 → Cx F) (hm : stateNorm (2 ^ n) (fun j => cval val (m j)) = 1) {ρ : ℝ} {m₁ m' : U64 → Cx F}
    (h1 : ItemsRunF lib L n params gs m m₁) (hN : Normalizable val u η Ω ρ n m₁) (h2 : NormalizesF E n m₁ m') :
    stateNorm (2 ^ n) (fun j => cval val (m' j) - exactRun ds (fun j => cval val (m j)) j) ≤
      2 * (ls.length * e) + (4 * ρ + 12 * u + 2 * η * √((2 ^ n : Nat) : ℝ)) := by
  have hn := hN.qubits
  obtain ⟨m₂, r1, r2, r3⟩ := C92_circuit A hε h4 hb hd hK1 hls hf hq hKε hKΩ hE hk m hm.le
  obtain rfl := r2 m₁ h1
  have hη0 := A.eta_nonneg
  have hu0 := A.u_nonneg
  have hw0 := A.w_nonneg
  obtain ⟨n1, -⟩ := (C93_normalize_partial A Z hD (by linarith) (by linarith) hN).2 m' h2
  have hx := lines_norm hb hd hls hn hq (fun j => cval val (m j))
  have hT : 0 < √(normSq (2 ^ n) fun j => cval val (m₁ j)) := Real.sqrt_pos.2 hN.pos
  unfold stateNorm at hm n1 r3 ⊢
  rw [sqrt_normSq hn] at hm
  have hnorm := (sqrt_normSq hn fun j => cval val (m₁ j)).symm
  rw [sqrt_normSq hn, vec_sub] at n1 r3 ⊢
  rw [hm] at hx
  generalize √(normSq (2 ^ n) fun j => cval val (m₁ j)) = T at *
  generalize exactRun ds (fun j => cval val (m j)) = φ at *
  have e : (fun j => cval val (m₁ j) / (T : ℂ)) = fun j => ((T⁻¹ : ℝ) : ℂ) * cval val (m₁ j) := by
    funext j; rw [div_eq_inv_mul]; push_cast; rfl
  rw [e, vec_smul] at n1
  generalize vec n (fun j => cval val (m' j)) = x at *
  generalize vec n (fun j => cval val (m₁ j)) = y at *
  generalize vec n φ = z at *
  have h3 : ‖((T⁻¹ : ℝ) : ℂ) • y - y‖ ≤ ‖y - z‖ := by
    have e1 : ((T⁻¹ : ℝ) : ℂ) • y - y = ((T⁻¹ - 1 : ℝ) : ℂ) • y := by rw [Complex.ofReal_sub, sub_smul]; simp
    have e2 : |T⁻¹ - 1| * T = |T - 1| := by
      rw [← abs_of_pos hT, ← abs_mul, abs_of_pos hT, sub_mul, inv_mul_cancel₀ hT.ne', one_mul, abs_sub_comm]
    rw [e1, norm_smul, Complex.norm_real, Real.norm_eq_abs, hnorm, e2, ← hnorm, ← hx]
    exact abs_norm_sub_norm_le _ _
  have h5 := norm_add₃_le (a := x - ((T⁻¹ : ℝ) : ℂ) • y) (b := ((T⁻¹ : ℝ) : ℂ) • y - y) (c := y - z)
  rw [sub_add_sub_cancel, sub_add_sub_cancel] at h5
  linarith

/-- **C93, a circuit and then normalisation.** On a state of norm one a circuit of `k` unitary gates and parametric rotations with
`k E ≤ 1/4` leaves a state that can be normalised, and the normalised state is within `2 k E + 4 ρ + 12 u + 2 η √dim` of the exact result. -/
theorem C93_after_circuit (A : Accurate lib val u w η Ω) (Z : AddZero val Ω) (hD : DivAccurate E val u η Ω) {ε : ℝ} (hε : u + η + w ≤ ε)
    (h4 : ε ≤ 1 / 400) {ls : List FLine} {gs : List (UGate ⊕ PRot × String)} (hb : List.Forall₂ FLine.Built ls gs)
    {params : String → Option ℝ} {ds : List GateDesc} (hd : List.Forall₂ (FLine.Is params) ls ds) {K : ℝ} (hK1 : 1 ≤ K)
    (hls : ∀ l ∈ ls, LineBounded u w η Ω ε K params l) {L n : Nat} (hf : Fits L 1 n) (hq : ∀ d ∈ ds, ∀ q ∈ qubitsOf d, q < n)
    (hKε : K * ε ≤ 1 / 400) (hKΩ : 16 * K ≤ Ω) {e : ℝ} (hE : e = 256 * K ^ 2 * (2 * ε + η * √((2 ^ n : Nat) : ℝ))) (hk : ls.length * e ≤ 1 / 4)
    {ρ : ℝ} (hρ : ρ ≤ 1 / 4) (hrel : sumErr u η (2 ^ n) (25 / 16) ≤ ρ * (9 / 16))
    (hr : ((1 : ℝ) + u) ^ (2 ^ n + 2) * (25 / 16 + 2 * ((2 ^ n : ℕ) : ℝ) * η) ≤ Ω)
    (m : U64 → Cx F) (hm : stateNorm (2 ^ n) (fun j => cval val (m j)) = 1) {m₁ : U64 → Cx F} (h1 : ItemsRunF lib L n params gs m m₁) :
    (∃ m', NormalizesF E n m₁ m') ∧ ∀ m', NormalizesF E n m₁ m' →
      stateNorm (2 ^ n) (fun j => cval val (m' j) - exactRun ds (fun j => cval val (m j)) j) ≤
        2 * (ls.length * e) + (4 * ρ + 12 * u + 2 * η * √((2 ^ n : Nat) : ℝ)) := by
  have hn : n ≤ 63 := Nat.lt_succ_iff.1 hf.qubits
  have hη0 := A.eta_nonneg
  have hu0 := A.u_nonneg
  have hw0 := A.w_nonneg
  obtain ⟨m₂, r1, r2, r3⟩ := C92_circuit A hε h4 hb hd hK1 hls hf hq hKε hKΩ hE (by linarith) m hm.le
  obtain rfl := r2 m₁ h1
  have hx := lines_norm hb hd hls hn hq (fun j => cval val (m j))
  have hN : Normalizable val u η Ω ρ n m₁ := by
    unfold stateNorm at hm r3
    rw [sqrt_normSq hn] at hm
    rw [sqrt_normSq hn, vec_sub] at r3
    rw [hm] at hx
    have hd1 := (abs_norm_sub_norm_le _ _).trans (r3.trans hk)
    rw [hx, abs_le] at hd1
    have hP := normSq_vec hn fun j => cval val (m₁ j)
    have hlo : 9 / 16 ≤ normSq (2 ^ n) fun j => cval val (m₁ j) := by rw [hP]; nlinarith
    have hhi : (normSq (2 ^ n) fun j => cval val (m₁ j)) ≤ 25 / 16 := by rw [hP]; nlinarith [norm_nonneg (vec n fun j => cval val (m₁ j))]
    have hρ0 : 0 ≤ ρ := by
      have := sumErr_nonneg hu0 hη0 (2 ^ n) (show (0 : ℝ) ≤ 25 / 16 by norm_num)
      linarith
    refine ⟨hn, fun j hj => ?_, by linarith, ?_, by linarith [A.big], ?_, hρ⟩
    · exact (amp_le_norm (fun j => cval val (m₁ j)) hj).trans (by linarith)
    · exact (mul_le_mul_of_nonneg_left (by linarith) (by positivity)).trans hr
    · exact (sumErr_mono hu0 hη0 le_rfl hhi (by norm_num)).trans (hrel.trans (mul_le_mul_of_nonneg_left hlo hρ0))
  refine ⟨(C93_normalize_partial A Z hD (by linarith) (by linarith) hN).1, fun m' h2 => ?_⟩
  exact after_circuit A Z hD hε h4 hb hd hK1 hls hf hq hKε hKΩ hE (by linarith) m hm h1 hN h2

end

/-! ## half precision: a state of norm one that cannot be normalised -/

namespace HalfNorm

open Classical in
/-- division and square root of half-precision numbers (signed zeros are not distinguished) -/
noncomputable def divLib : DivLib Half where
  div
  | .fin a, .fin b => if b = 0 then (if a = 0 then .nan else .inf (decide (a < 0))) else Half.near (a / b)
  | .fin _, .inf _ => .fin 0
  | .inf s, .fin b => .inf (s != decide (b < 0))
  | _, _ => .nan
  sqrt
  | .fin a => if a < 0 then .nan else Half.near (√a)
  | .inf false => .inf false
  | _ => .nan

/-- the state `|+⟩` of 26 qubits: all amplitudes are `2⁻¹³` -/
noncomputable def plus : U64 → Cx Half := fun _ => ⟨.fin (2⁻¹ ^ 13), .fin 0⟩

theorem near_square : Half.near (2⁻¹ ^ 13 * 2⁻¹ ^ 13) = .fin 0 := by
  unfold Half.near
  have h1 : Int.log 2 |(2⁻¹ ^ 13 * 2⁻¹ ^ 13 : ℝ)| < -20 := by
    rw [abs_of_pos (by norm_num), ← Int.lt_zpow_iff_log_lt (by norm_num) (by norm_num)]
    norm_num
  have e : max (Int.log 2 |(2⁻¹ ^ 13 * 2⁻¹ ^ 13 : ℝ)| - 10) (-24) = -24 := by omega
  simp only [e]
  have h : round ((2⁻¹ ^ 13 * 2⁻¹ ^ 13 : ℝ) / (2 : ℝ) ^ (-24 : ℤ)) = 0 := by
    rw [round_eq_zero_iff]
    constructor <;> norm_num
  rw [h]
  norm_num

theorem plus_square (j : U64) : (squaredC (plus j) : Half) = 0 := by
  show Half.near (2⁻¹ ^ 13 * 2⁻¹ ^ 13) + Half.near (0 * 0) = Half.fin 0
  rw [near_square, mul_zero, Half.near_zero]
  show Half.near (0 + 0) = Half.fin 0
  rw [add_zero, Half.near_zero]

theorem zeros_sum {l : List Half} {s : Half} (h : ReducesTo l s) : (∀ x ∈ l, x = 0) → s = 0 := by
  have z : (0 : Half) + 0 = 0 := by show Half.near (0 + 0) = Half.fin 0; rw [add_zero, Half.near_zero]
  induction h with
  | init => intro _; rfl
  | item x _ ih =>
    intro h
    rw [ih fun y hy => h y (List.mem_cons_of_mem _ hy), h x List.mem_cons_self, z]
  | join _ _ ih1 ih2 =>
    intro h
    rw [ih1 fun y hy => h y (List.mem_append_left _ hy), ih2 fun y hy => h y (List.mem_append_right _ hy), z]
  | perm hp _ ih => intro h; exact ih fun y hy => h y (hp.mem_iff.1 hy)

end HalfNorm

/-- the real number meant by a finite half-precision number -/
noncomputable def halfVal : Half → ℝ
  | .fin r => r
  | _ => 0

/-- **C93, disagreement.** In half precision the state `|+⟩` on 26 qubits has norm one and its amplitudes are represented exactly, but
every square underflows: `get_squared_norm()` returns zero, and `normalize()` leaves infinite amplitudes. -/
theorem C93_half_counterexample :
    stateNorm (2 ^ 26) (fun j => cval halfVal (HalfNorm.plus j)) = 1 ∧
    (∃ r, SquaredNormF (F := Half) 26 HalfNorm.plus r) ∧ (∀ r, SquaredNormF (F := Half) 26 HalfNorm.plus r → r = .ok 0) ∧
    (∃ m', NormalizesF HalfNorm.divLib 26 HalfNorm.plus m') ∧
    ∀ m', NormalizesF HalfNorm.divLib 26 HalfNorm.plus m' → ∀ j, InState (2 ^ 26) j → (m' j).re = .inf false := by
  have hsum : ∀ r : Res Half, SquaredNormF 26 HalfNorm.plus r ↔
      ∃ s, r = .ok s ∧ ReducesTo ((List.range (2 ^ 26)).map fun i => (squaredC (HalfNorm.plus (BitVec.ofNat 64 i)) : Half)) s := by
    intro r
    refine reduction_ok (fun a ha => ?_) r
    have ha' : a < 2 ^ 26 := List.mem_range.1 ha
    unfold readSqF
    rw [readAt_ok (by rw [toNat_ofNat_pow (by norm_num) ha']; exact ha')]
    rfl
  have hzero : ∀ r : Res Half, SquaredNormF 26 HalfNorm.plus r → r = .ok 0 := by
    intro r hr
    obtain ⟨s, rfl, h⟩ := (hsum r).1 hr
    rw [HalfNorm.zeros_sum h]
    intro x hx
    obtain ⟨i, -, rfl⟩ := List.mem_map.1 hx
    exact HalfNorm.plus_square _
  have hex : ∃ s : Half, SquaredNormF 26 HalfNorm.plus (.ok s) := by
    obtain ⟨s, hs⟩ := reducesTo_exists ((List.range (2 ^ 26)).map fun i => (squaredC (HalfNorm.plus (BitVec.ofNat 64 i)) : Half))
    exact ⟨s, (hsum _).2 ⟨s, rfl, hs⟩⟩
  refine ⟨?_, ⟨_, hex.choose_spec⟩, hzero, ?_, ?_⟩
  · unfold stateNorm
    rw [normSq_norm, Finset.sum_congr rfl (g := fun _ => ((2⁻¹ ^ 13) ^ 2 : ℝ)) (fun j _ => ?_), sum_indices (by norm_num), Finset.sum_const, Finset.card_range]
    · rw [nsmul_eq_mul]
      norm_num
    · have : cval halfVal (HalfNorm.plus j) = (((2⁻¹ ^ 13 : ℝ)) : ℂ) := rfl
      rw [this, Complex.norm_real, Real.norm_of_nonneg (by positivity)]
  · obtain ⟨s, hs⟩ := hex
    exact ⟨_, s, hs, elementwise_runs (by norm_num) _ _⟩
  · rintro m' ⟨s, hs, hr⟩ j hj
    have e : s = 0 := by have := hzero _ hs; cases this; rfl
    subst e
    rw [DRuns.unique hr (elementwise_runs (by norm_num) _ _)]
    dsimp only
    rw [if_pos hj]
    show HalfNorm.divLib.div (.fin (2⁻¹ ^ 13)) (HalfNorm.divLib.sqrt (.fin 0)) = _
    have h0 : HalfNorm.divLib.sqrt (.fin 0) = .fin 0 := by
      show (if (0 : ℝ) < 0 then Half.nan else Half.near (√0)) = _
      rw [if_neg (lt_irrefl _), Real.sqrt_zero, Half.near_zero]
    rw [h0]
    show (if (0 : ℝ) = 0 then (if (2⁻¹ ^ 13 : ℝ) = 0 then Half.nan else .inf (decide ((2⁻¹ ^ 13 : ℝ) < 0))) else _) = _
    rw [if_pos rfl, if_neg (by positivity), decide_eq_false (by norm_num)]

/-! ## examples: 53-bit significands -/

theorem bin_divAccurate (Ω : ℝ) : DivAccurate Bin.divLib Bin.val (2⁻¹ ^ 53) 0 Ω where
  div x y _ _ _ := by rw [add_zero]; exact Bin.near_error _
  sqrt x _ _ := by
    have := Bin.near_error (√x.val)
    rwa [abs_of_nonneg (Real.sqrt_nonneg _)] at this

/-- the number 2 -/
def binTwo : Bin := ⟨2, 0, by norm_num⟩

theorem binTwo_val : binTwo.val = 2 := by show ((2 : ℤ) : ℝ) * (2 : ℝ) ^ (0 : ℤ) = 2; norm_num

/-- four amplitudes of 2 -/
def twos : U64 → Cx Bin := fun _ => ⟨binTwo, 0⟩

theorem twos_val (j : U64) : cval Bin.val (twos j) = 2 := Complex.ext (by show binTwo.val = _; rw [binTwo_val]; simp) (by
  show (0 : Bin).val = _; rw [Bin.val_zero]; simp)

theorem twos_norm : normSq (2 ^ 2) (fun j => cval Bin.val (twos j)) = 16 := by
  rw [normSq_norm, Finset.sum_congr rfl (g := fun _ => (4 : ℝ)) (fun j _ => by rw [twos_val]; norm_num), sum_indices (by norm_num),
    Finset.sum_const, Finset.card_range]
  norm_num

theorem twos_normalizable : Normalizable Bin.val (2⁻¹ ^ 53) 0 64 (2⁻¹ ^ 50) 2 twos where
  qubits := by norm_num
  amps j _ := by rw [twos_val]; norm_num
  pos := by rw [twos_norm]; norm_num
  range := by rw [twos_norm]; norm_num
  twice := by rw [twos_norm]; norm_num
  rel := by rw [twos_norm]; unfold sumErr; norm_num
  small := by norm_num

/-- the state with amplitudes 2 is normalised to a state whose norm is one up to `2⁻⁴⁷`, as a single state and in a batch of three -/
example : (∃ m', NormalizesF Bin.divLib 2 twos m') ∧
    (∀ m', NormalizesF Bin.divLib 2 twos m' → |stateNorm (2 ^ 2) (fun j => cval Bin.val (m' j)) - 1| ≤ 2⁻¹ ^ 47) ∧
    ∃ m', BatchNormalizesF Bin.divLib 3 2 (fun _ => twos) m' := by
  obtain ⟨h1, h2⟩ := C93_normalize_partial (Bin.accurate le_rfl) (bin_addZero 64) (bin_divAccurate 64) (by norm_num) (by norm_num) twos_normalizable
  refine ⟨h1, fun m' h => (h2 m' h).2.trans (by norm_num), ?_⟩
  exact (C93_normalize_batched_partial (Bin.accurate le_rfl) (bin_addZero 64) (bin_divAccurate 64) (by norm_num) (by norm_num)
    fun _ _ => twos_normalizable).1

/-- adding half of it to itself -/
example : ∃ m', AddsWithCoefF Bin.lib 2 2 (1 / 2) twos twos m' ∧
    stateNorm (2 ^ 2) (fun j => cval Bin.val (m' j) - (cval Bin.val (twos j) + 1 / 2 * cval Bin.val (twos j))) ≤ 2⁻¹ ^ 45 := by
  have hm : ∀ j : U64, j.toNat < 2 ^ 2 → ‖cval Bin.val (twos j)‖ ≤ 4 := fun j _ => by rw [twos_val]; norm_num
  obtain ⟨m', h1, -, h2⟩ := C93_add (Bin.accurate (Ω := 64) le_rfl) (by norm_num) (by norm_num) (by norm_num) le_rfl hm hm (c := 1 / 2) (by norm_num)
  refine ⟨m', h1, h2.trans ?_⟩
  have e : stateNorm (2 ^ 2) (fun j => cval Bin.val (twos j)) = 4 := by
    unfold stateNorm; rw [twos_norm, show (16 : ℝ) = 4 ^ 2 by norm_num, Real.sqrt_sq (by norm_num)]
  rw [e]; norm_num

/-- the circuit `rotLines` of C92 and then normalisation: an error of at most `2⁻³⁴` -/
example {gs : List (UGate ⊕ PRot × String)} (hb : List.Forall₂ FLine.Built rotLines gs) (m m₁ : U64 → Cx Bin)
    (hm : stateNorm (2 ^ 2) (fun j => cval Bin.val (m j)) = 1)
    (h1 : ItemsRunF Bin.lib 8 2 (fun k => if k = "a" then some (-3) else none) gs m m₁) :
    ∃ m', NormalizesF Bin.divLib 2 m₁ m' ∧ stateNorm (2 ^ 2) (fun j => cval Bin.val (m' j) -
      exactRun [.one .H 0 [] [], .one (.RX (2 * -3)) 1 [] [], .one .X 1 [0] []] (fun j => cval Bin.val (m j)) j) ≤ 2⁻¹ ^ 34 := by
  obtain ⟨hd, hq, hls⟩ := rotLines_facts
  have hl : rotLines.length = 3 := rfl
  obtain ⟨⟨m', h2⟩, h3⟩ := C93_after_circuit (Bin.accurate le_rfl) (bin_addZero 64) (bin_divAccurate 64) (ε := 2⁻¹ ^ 46) (by norm_num)
    (by norm_num) hb hd (K := 1) le_rfl hls ⟨Or.inr ⟨3, by norm_num, by norm_num⟩, by norm_num, by norm_num⟩ hq (by norm_num) (by norm_num) rfl
    (by rw [hl]; norm_num) (ρ := 2⁻¹ ^ 48) (by norm_num) (by unfold sumErr; norm_num) (by norm_num) m hm h1
  exact ⟨m', h2, (h3 m' h2).trans (by rw [hl]; norm_num)⟩

end Verif.Props
