import Verif.Proofs.FloatGate
import Verif.Proofs.Vec

/-! # Rounding errors of circuits; SIMD and scalar kernels in floating-point arithmetic -/

namespace Verif.Proofs
open Verif Verif.Spec Verif.Model
attribute [-simp] BitVec.getLsbD_eq_getElem

theorem sqrt_normSq {n : Nat} (hn : n ≤ 63) (a : U64 → ℂ) : √(normSq (2 ^ n) a) = ‖vec n a‖ := by
  rw [normSq_vec hn, Real.sqrt_sq (norm_nonneg _)]

theorem vec_sub (n : Nat) (ψ φ : U64 → ℂ) : vec n (fun j => ψ j - φ j) = vec n ψ - vec n φ := by ext i; simp

theorem operatorOf_sub (d : GateDesc) (ψ φ : U64 → ℂ) : operatorOf d (fun j => ψ j - φ j) = fun j => operatorOf d ψ j - operatorOf d φ j := by
  have h1 := applyMat_add (ts := targetsOf d) (cs := controlsOf d) (matrixOf d) (fun j => ψ j - φ j) φ
  funext j
  have h2 := congrFun h1 j
  simp only [sub_add_cancel] at h2
  exact eq_sub_of_add_eq h2.symm

theorem amp_le_norm {n : Nat} (a : U64 → ℂ) {j : U64} (hj : j.toNat < 2 ^ n) : ‖a j‖ ≤ ‖vec n a‖ := by
  have := PiLp.norm_apply_le (vec n a) ⟨j.toNat, hj⟩
  rw [vec_apply] at this
  simpa using this

theorem vec_operator_norm {d : GateDesc} {g : UGate} (hd : DescOK d) (hu : UnitaryDesc d) (h : d.build = .ok g) {n : Nat} (hn : n ≤ 63)
    (hq : ∀ q ∈ qubitsOf d, q < n) (ψ : U64 → ℂ) : ‖vec n (operatorOf d ψ)‖ = ‖vec n ψ‖ := by
  obtain ⟨hv, he, hs⟩ := build_valid hd h
  have := normSq_valid hv (unitaryHyp_of hd h hu) (n := n) (B := 1) (by rw [Nat.one_mul]; exact pow64 hn) (build_bounds hs hq).1 ψ
  rw [Nat.one_mul, he] at this
  rw [← sqrt_normSq hn, ← sqrt_normSq hn, this]

section
variable {F : Type} [_root_.Zero F] [One F] [Add F] [Sub F] [Mul F] [Neg F] {lib : FloatLib F} {val : F → ℝ} {u w η Ω ε : ℝ}

local notation "⟪" x "⟫" => cval val x

theorem terms_ge (d : GateDesc) : 1 ≤ terms d := by
  cases d <;> simp only [terms, le_refl]
  · split
    · exact le_rfl
    · exact one_le_pow₀ (by norm_num)
  · exact one_le_pow₀ (by norm_num)

/-- the outcome of a list of gates stays close to the product of their operators -/
theorem gates_close (A : Accurate lib val u w η Ω) (hε : u + η + w ≤ ε) (h4 : ε ≤ 1 / 400) {L n : Nat} (hL : LanesOK L) (hn : n < 64)
    {ds : List GateDesc} {gs : List UGate} (hb : List.Forall₂ (fun d g => GateDesc.build d = .ok g) ds gs)
    {K : ℝ} (hKε : K * ε ≤ 1 / 400) (hKΩ : 16 * K ≤ Ω)
    (hd : ∀ d ∈ ds, DescOK d ∧ Covered d ∧ UnitaryDesc d ∧ terms d ≤ K ∧ (∀ a ∈ angles d, |a| ≤ 32 ∧ (u + η) * (1 + |a|) + w ≤ ε) ∧ ∀ q ∈ qubitsOf d, q < n)
    {E : ℝ} (hE : E = 256 * K ^ 2 * (2 * ε + η * √((2 ^ n : Nat) : ℝ))) (m : U64 → Cx F) {φ : U64 → ℂ} {e : ℝ} (he0 : 0 ≤ e)
    (he : ‖vec n (fun j => ⟪m j⟫) - vec n φ‖ ≤ e) (hφ : ‖vec n φ‖ ≤ 1) (hk : e + gs.length * E ≤ 1) :
    ∃ m', GatesRunF lib L n gs m m' ∧
      ‖vec n (fun j => ⟪m' j⟫) - vec n (ds.foldl (fun ψ d => operatorOf d ψ) φ)‖ ≤ e + gs.length * E := by
  have hu0 := A.u_nonneg
  have hη0 := A.eta_nonneg
  have hw0 := A.w_nonneg
  have hsq := Real.sqrt_nonneg ((2 ^ n : Nat) : ℝ)
  have hε0 : 0 ≤ ε := by linarith
  have hE0 : 0 ≤ E := by rw [hE]; positivity
  induction hb generalizing m φ e with
  | nil => exact ⟨m, rfl, by simpa using he⟩
  | @cons d g ds gs hdg _ ih =>
    obtain ⟨hok, hcov, huni, hK, hang, hq⟩ := hd d List.mem_cons_self
    obtain ⟨dev, hdev, hstep⟩ := gate_close (L := L) (B := 1) (n := n) A hε h4 hok hcov hdg hang hL hn
      (by rw [Nat.one_mul]; exact pow64 (by omega)) hq (le_trans (mul_le_mul_of_nonneg_right hK hε0) hKε) (by linarith)
    rw [List.length_cons] at hk ⊢
    push_cast at hk ⊢
    have hgs : (0 : ℝ) ≤ gs.length * E := mul_nonneg (Nat.cast_nonneg _) hE0
    have hx : ‖vec n (fun j => ⟪m j⟫)‖ ≤ 2 := by
      have := norm_add_le (vec n (fun j => ⟪m j⟫) - vec n φ) (vec n φ)
      rw [sub_add_cancel] at this
      linarith
    rw [Nat.one_mul] at hstep
    obtain ⟨m₁, hrun, hm₁⟩ := hstep m (fun j hj => le_trans (amp_le_norm (fun j => ⟪m j⟫) hj) (by linarith))
    rw [sqrt_normSq (by omega), sqrt_normSq (by omega), vec_sub] at hm₁
    have h1 : ‖vec n (fun j => ⟪m₁ j⟫) - vec n (operatorOf d fun j => ⟪m j⟫)‖ ≤ E := by
      refine le_trans hm₁ ?_
      rw [hE]
      have h1 : ε * ‖vec n (fun j => ⟪m j⟫)‖ ≤ ε * 2 := mul_le_mul_of_nonneg_left hx (by linarith)
      have h2 : terms d ^ 2 ≤ K ^ 2 := pow_le_pow_left₀ (le_trans zero_le_one (terms_ge d)) hK 2
      exact mul_le_mul (by linarith) (by linarith) (by positivity) (by positivity)
    have h2 : ‖vec n (operatorOf d fun j => ⟪m j⟫) - vec n (operatorOf d φ)‖ ≤ e := by
      rw [← vec_sub, ← operatorOf_sub, vec_operator_norm hok huni hdg (by omega) hq, vec_sub]
      exact he
    have h3 : ‖vec n (fun j => ⟪m₁ j⟫) - vec n (operatorOf d φ)‖ ≤ e + E := by
      have := norm_add_le (vec n (fun j => ⟪m₁ j⟫) - vec n (operatorOf d fun j => ⟪m j⟫))
        (vec n (operatorOf d fun j => ⟪m j⟫) - vec n (operatorOf d φ))
      rw [sub_add_sub_cancel] at this
      linarith
    obtain ⟨m', hm', hbound⟩ := ih (fun d hd' => hd d (List.mem_cons_of_mem _ hd')) m₁ (φ := operatorOf d φ) (e := e + E)
      (by linarith) h3 (by rw [vec_operator_norm hok huni hdg (by omega) hq]; exact hφ) (by linarith)
    refine ⟨m', ⟨dev, m₁, hdev, by rw [Nat.one_mul]; exact hrun, hm'⟩, ?_⟩
    rw [List.foldl_cons]
    linarith

/-- there is at most one outcome -/
theorem gatesRunF_unique {R F : Type} [Cplx R F] [_root_.Zero F] [One F] [Add F] [Sub F] [Mul F] [Neg F]
    [_root_.Zero R] [One R] [Add R] [Sub R] [Mul R] [Neg R] {lib : FloatLib F} {L n : Nat} {gs : List UGate} {m m₁ m₂ : U64 → R}
    (h₁ : GatesRunF lib L n gs m m₁) (h₂ : GatesRunF lib L n gs m m₂) : m₁ = m₂ := by
  induction gs generalizing m with
  | nil => rw [h₁, h₂]
  | cons g gs ih =>
    obtain ⟨d, a, hd, hr, h⟩ := h₁
    obtain ⟨d', a', hd', hr', h'⟩ := h₂
    rw [hd] at hd'
    injection hd' with hd'
    subst hd'
    obtain rfl := DRuns.unique hr hr'
    exact ih h h'

end

/-! ## SIMD and scalar kernels -/

section
variable {F : Type} [_root_.Zero F] [One F] [Add F] [Sub F] [Mul F] [Neg F]

theorem laneMul_eq_mul (H : SignLaws F) (z a : Cx F) : laneMul z a = z * a := by
  show (⟨z.re * a.re + z.im * -a.im, z.re * a.im + z.im * a.re⟩ : Cx F) = ⟨z.re * a.re - z.im * a.im, z.re * a.im + z.im * a.re⟩
  rw [H.sub_eq, H.mul_neg]

theorem cx_mul_comm (H : SignLaws F) (z a : Cx F) : z * a = a * z := by
  show (⟨z.re * a.re - z.im * a.im, z.re * a.im + z.im * a.re⟩ : Cx F) = ⟨a.re * z.re - a.im * z.im, a.re * z.im + a.im * z.re⟩
  rw [H.mul_comm z.re a.re, H.mul_comm z.im a.im, H.mul_comm z.re a.im, H.mul_comm z.im a.re, H.add_comm (a.im * z.re)]

theorem rowOp_same (H : SignLaws F) (s s' : Bool) (x y a b : Cx F) : rowOp s x y a b = rowOp s' x y a b := by
  have : ∀ s, rowOp s x y a b = x * a + y * b := by
    intro s
    unfold rowOp
    split
    · rw [laneMul_eq_mul H, laneMul_eq_mul H]; rfl
    · rfl
  rw [this, this]

theorem mulOp_same (H : SignLaws F) (s s' : Bool) (z a : Cx F) : mulOp s z a = mulOp s' z a := by
  have : ∀ s, mulOp s z a = a * z := by
    intro s
    unfold mulOp
    split
    · rw [laneMul_eq_mul H, cx_mul_comm H]
    · rfl
  rw [this, this]

theorem dense1_lanes (H : SignLaws F) {B n q L L' : Nat} {t c v : U64} (hL : LanesOK L) (hL' : LanesOK L') (h : MasksOK B n t c v)
    (hq : IsBit t q) (M : M22 (Cx F)) (m : U64 → Cx F) :
    ∃ m', DRuns (B * 2 ^ n) (dense1 L n t c v M (B * 2 ^ n)) m m' ∧ DRuns (B * 2 ^ n) (dense1 L' n t c v M (B * 2 ^ n)) m m' := by
  refine ⟨_, dense1_any hL h hq M m, ?_⟩
  have := dense1_any hL' h hq M m
  rw [show rowOp (usesLanes L n (t ||| c)) M.m00 M.m01 = rowOp (usesLanes L' n (t ||| c)) M.m00 M.m01 from by
      funext a b; exact rowOp_same H _ _ _ _ _ _,
    show rowOp (usesLanes L n (t ||| c)) M.m10 M.m11 = rowOp (usesLanes L' n (t ||| c)) M.m10 M.m11 from by
      funext a b; exact rowOp_same H _ _ _ _ _ _]
  exact this

theorem zeroTarget_lanes (H : SignLaws F) {B n L L' : Nat} {c v : U64} (hL : LanesOK L) (hL' : LanesOK L') (h : MasksOK B n 0 c v)
    (z : Cx F) (m : U64 → Cx F) :
    ∃ m', DRuns (B * 2 ^ n) (zeroTarget L n c v z (B * 2 ^ n)) m m' ∧ DRuns (B * 2 ^ n) (zeroTarget L' n c v z (B * 2 ^ n)) m m' := by
  refine ⟨_, zeroTarget_any hL h z m, ?_⟩
  have := zeroTarget_any hL' h z m
  rw [show (fun (_ : U64) (a _ : Cx F) => mulOp (usesLanes L n c) z a) = fun _ a _ => mulOp (usesLanes L' n c) z a from by
      funext _ a _; exact mulOp_same H _ _ _ _]
  exact this

/-- two launches with the same outcomes -/
def SameRuns {R : Type} (dim : Nat) (d d' : Device R) : Prop := ∀ m m', DRuns dim d m m' ↔ DRuns dim d' m m'

theorem sameRuns_of {R : Type} {dim : Nat} {d d' : Device R} (h : ∀ m, ∃ m', DRuns dim d m m' ∧ DRuns dim d' m m') : SameRuns dim d d' := by
  intro m m'
  obtain ⟨a, h1, h2⟩ := h m
  constructor
  · intro hr; rw [DRuns.unique hr h1]; exact h2
  · intro hr; rw [DRuns.unique hr h2]; exact h1

theorem gate1_lanes (H : SignLaws F) (lib : FloatLib F) {B n q L L' : Nat} {o : Operands} (hL : LanesOK L) (hL' : LanesOK L')
    (h : MasksOK B n o.t o.c o.v) (hq : IsBit o.t q) (k : Gate1) :
    SameRuns (B * 2 ^ n) (gate1KernelF lib L n o (B * 2 ^ n) k : Device (Cx F)) (gate1KernelF lib L' n o (B * 2 ^ n) k) := by
  cases k
  case X | Y | Z | S | Sdag | T | Tdag | RZ | U1 => exact fun _ _ => Iff.rfl
  all_goals exact sameRuns_of fun m => dense1_lanes H hL hL' h hq _ m

/-- the lanes do not change the outcome of a gate -/
theorem updateF_lanes (H : SignLaws F) (lib : FloatLib F) {g : UGate} (hv : Valid g) {B n L L' : Nat} (hL : LanesOK L) (hL' : LanesOK L')
    (hsize : B * 2 ^ n ≤ 2 ^ 64) {d : Device (Cx F)} (hd : g.updateF lib L B n = .ok d) :
    ∃ d', g.updateF lib L' B n = .ok d' ∧ SameRuns (B * 2 ^ n) d d' := by
  cases g with
  | globalPhase phase o =>
    obtain ⟨ho, h0⟩ := hv
    obtain ⟨_, hck, hd⟩ := bind_ok hd
    have hm := (ctx_of (mkOperands_self ho) hck hsize).masks
    rw [h0] at hm
    cases hd
    refine ⟨_, ?_, sameRuns_of fun m => zeroTarget_lanes H hL hL' hm _ m⟩
    show (checkWithinBounds o n >>= fun _ => _) = _
    rw [hck]; rfl
  | one k o =>
    obtain ⟨ho, q, hq⟩ := hv
    obtain ⟨_, hck, hd⟩ := bind_ok hd
    have hmk := mkOperands_self ho
    rw [hq] at hmk
    cases hd
    refine ⟨_, ?_, gate1_lanes H lib hL hL' (ctx_of hmk hck hsize).masks (isBit_of hmk) k⟩
    show (checkWithinBounds o n >>= fun _ => _) = _
    rw [hck]; rfl
  | dense g =>
    obtain ⟨ho, hr, hcol⟩ := hv
    have hmk := mkOperands_self ho
    have hlen := length_maskToVector g.o.t
    change denseUpdateF lib L B n g.mat g.o = .ok d at hd
    show ∃ d', denseUpdateF lib L' B n g.mat g.o = .ok d' ∧ _
    obtain ⟨_, hck, hd⟩ := bind_ok hd
    have ctx := ctx_of hmk hck hsize
    unfold denseUpdateF
    rw [hck, ok_bind]
    dsimp only at hd ⊢
    split at hd
    · rename_i h1
      rw [if_pos h1]
      cases hd
      refine ⟨_, rfl, sameRuns_of fun m => zeroTarget_lanes H hL hL' ?_ _ m⟩
      have hl : (maskToVector g.o.t).length = 0 := by
        by_contra hh
        have := Nat.pow_le_pow_right (n := 2) (by omega) (show 1 ≤ (maskToVector g.o.t).length by omega)
        omega
      have hnil := List.length_eq_zero_iff.1 hl
      have ht0 : g.o.t = 0 := by
        apply U64.ext; intro i _
        have : i ∉ maskToVector g.o.t := by rw [hnil]; simp
        rw [mem_maskToVector] at this
        simpa using this
      exact ht0 ▸ ctx.masks
    · rename_i h1
      rw [if_neg h1]
      split at hd
      · rename_i h2
        rw [if_pos h2]
        cases hd
        have hl : (maskToVector g.o.t).length = 1 := Nat.pow_right_injective (le_refl 2) (by simp only; omega)
        obtain ⟨q, hq⟩ := List.length_eq_one_iff.1 hl
        rw [hq] at hmk
        exact ⟨_, rfl, sameRuns_of fun m => dense1_lanes H hL hL' ctx.masks (isBit_of hmk) _ m⟩
      · rename_i h2
        rw [if_neg h2]
        exact ⟨d, hd, fun _ _ => Iff.rfl⟩
  | _ => exact ⟨d, hd, fun _ _ => Iff.rfl⟩

theorem gatesRunF_lanes (H : SignLaws F) (lib : FloatLib F) {n L L' : Nat} (hL : LanesOK L) (hL' : LanesOK L') (hn : n ≤ 63)
    {gs : List UGate} (hv : ∀ g ∈ gs, Valid g) {m m' : U64 → Cx F} (h : GatesRunF lib L n gs m m') : GatesRunF lib L' n gs m m' := by
  induction gs generalizing m with
  | nil => exact h
  | cons g gs ih =>
    obtain ⟨d, a, hd, hr, h⟩ := h
    obtain ⟨d', hd', hs⟩ := updateF_lanes H lib (hv g List.mem_cons_self) hL hL' (by rw [Nat.one_mul]; exact pow64 hn) hd
    exact ⟨d', a, hd', (hs _ _).1 hr, ih (fun g hg => hv g (List.mem_cons_of_mem _ hg)) h⟩

end

end Verif.Proofs
