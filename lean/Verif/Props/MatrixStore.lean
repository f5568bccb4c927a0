import Verif.Proofs.MatrixStore
import Verif.Proofs.BinExact
import Verif.Spec.Rounding

/-!
# C100: how the matrix of a dense gate is stored and read back
-/

namespace Verif.Props
open Verif Verif.Spec Verif.Model Verif.Proofs

variable {F : Type} [_root_.Zero F] [One F] [Add F] [Sub F] [Neg F] [Mul F] {lib : FloatLib F} {val : F → ℝ} {u w η Ω : ℝ}

/-- the matrix with `R` rows, `C` columns and the elements `e` -/
def IsMatrix (N : ExtMat) (R C : Nat) (e : Nat → Nat → ℂ) : Prop :=
  N.rows = R ∧ N.cols = C ∧ ∀ r < R, ∀ c < C, N.at r c = .ok (e r c)

/-- numbers of the precision of the gate -/
def Representable (val : F → ℝ) (z : ℂ) : Prop := ∃ x y : F, z.re = val x ∧ z.im = val y

theorem isMatrix_data {N : ExtMat} {R C : Nat} {e : Nat → Nat → ℂ} :
    IsMatrix N R C e ↔ N.rows = R ∧ N.cols = C ∧ ∀ r < R, ∀ c < C, N.data (r * C + c) = e r c := by
  unfold IsMatrix ExtMat.at
  constructor
  · rintro ⟨rfl, rfl, h⟩
    refine ⟨rfl, rfl, fun r hr c hc => ?_⟩
    have := h r hr c hc
    rw [if_pos ⟨hr, hc⟩] at this
    exact Except.ok.inj this
  · rintro ⟨rfl, rfl, h⟩
    refine ⟨rfl, rfl, fun r hr c hc => ?_⟩
    rw [if_pos ⟨hr, hc⟩, h r hr c hc]

omit [_root_.Zero F] [One F] [Add F] [Sub F] [Neg F] [Mul F] in
theorem widen_narrow (hrep : ∀ x, val (lib.cast (val x)) = val x) {z : ℂ} (hz : Representable val z) : widenC val (narrowC lib z) = z := by
  obtain ⟨x, y, h1, h2⟩ := hz
  apply Complex.ext
  · show val (lib.cast z.re) = z.re
    rw [h1, hrep]
  · show val (lib.cast z.im) = z.im
    rw [h2, hrep]

omit [_root_.Zero F] [One F] [Add F] [Sub F] [Neg F] [Mul F] in
theorem widen_representable (z : Cx F) : Representable val (widenC val z) := ⟨z.re, z.im, rfl, rfl⟩

omit [_root_.Zero F] [One F] [Add F] [Sub F] [Neg F] [Mul F] in
theorem get_is {M : ExtMat} {R C : Nat} {e : Nat → Nat → ℂ} (hM : IsMatrix M R C e) (hR : R < 2 ^ 31) (hC : C < 2 ^ 31) {s : Stored (Cx F)}
    (hs : StoresF lib M s) : (∃ N, GetMatrixF val s N) ∧ ∀ N, GetMatrixF val s N → IsMatrix N R C fun r c => widenC val (narrowC lib (e r c)) := by
  obtain ⟨rfl, rfl, he⟩ := isMatrix_data.1 hM
  obtain ⟨hex, h⟩ := getMatrix_of_stores (val := val) hR hC hs
  refine ⟨hex, fun N hN => ?_⟩
  obtain ⟨h1, h2, h3⟩ := h N hN
  exact isMatrix_data.2 ⟨h1, h2, fun r hr c hc => by rw [h3 r hr c hc, he r hr c hc]⟩

theorem adjoint_is {N : ExtMat} {R C : Nat} {e : Nat → Nat → ℂ} (hN : IsMatrix N R C e) :
    IsMatrix N.adjoint C R fun r c => (starRingEnd ℂ) (e c r) := by
  obtain ⟨rfl, rfl, he⟩ := isMatrix_data.1 hN
  refine isMatrix_data.2 ⟨rfl, rfl, fun r hr c hc => ?_⟩
  show (starRingEnd ℂ) (N.data ((r * N.rows + c) % N.rows * N.cols + (r * N.rows + c) / N.rows)) = _
  rw [grid_mod hc, grid_div hc, he c hc r hr]

theorem isMatrix_congr {N : ExtMat} {R C : Nat} {e e' : Nat → Nat → ℂ} (hN : IsMatrix N R C e) (h : ∀ r < R, ∀ c < C, e r c = e' r c) :
    IsMatrix N R C e' :=
  ⟨hN.1, hN.2.1, fun r hr c hc => by rw [hN.2.2 r hr c hc, h r hr c hc]⟩

/-! ## Storing -/

omit [_root_.Zero F] [One F] [Add F] [Sub F] [Neg F] [Mul F] in
/-- Whatever the order of the parallel loop and whichever of the four forms is chosen, element `(r, c)` of the stored matrix is element `(r, c)` of the
given one with both parts rounded; a kernel that reads outside of the matrix has undefined behaviour. -/
theorem C100_store {M : ExtMat} {R C : Nat} {e : Nat → Nat → ℂ} (hM : IsMatrix M R C e) (hR : R < 2 ^ 31) (hC : C < 2 ^ 31) :
    (∃ s, StoresF lib M s) ∧ ∀ s, StoresF lib M s →
      (∀ r < R, ∀ c < C, s.entry r c = .ok ⟨lib.cast (e r c).re, lib.cast (e r c).im⟩) ∧
        ∀ r c, ¬ (r < R ∧ c < C) → ∃ m, s.entry r c = .error (.ub m) := by
  obtain ⟨rfl, rfl, he⟩ := isMatrix_data.1 hM
  refine ⟨stores_exists hR hC, fun s hs => ?_⟩
  obtain ⟨h1, h2⟩ := stores_holds hR hC hs
  refine ⟨fun r hr c hc => ?_, h2⟩
  rw [h1 r hr c hc, ← he r hr c hc]
  rfl

/-- What is stored is what the kernels of C69 read. -/
theorem C100_kernel {M : ExtMat} {D : DMat ℂ} (hM : IsMatrix M D.rows D.cols D.entry) (hR : D.rows < 2 ^ 31) (hC : D.cols < 2 ^ 31)
    {s : Stored (Cx F)} (hs : StoresF lib M s) : ∀ r < D.rows, ∀ c < D.cols, s.entry r c = .ok (castC lib (D.entry r c)) :=
  fun r hr c hc => ((C100_store hM hR hC).2 s hs).1 r hr c hc

/-! ## Reading -/

/-- `get_matrix` has the size of the given matrix, and its elements are those of the given matrix up to one rounding. -/
theorem C100_get (hA : Accurate lib val u w η Ω) {M : ExtMat} {R C : Nat} {e : Nat → Nat → ℂ} (hM : IsMatrix M R C e) (hR : R < 2 ^ 31)
    (hC : C < 2 ^ 31) (hb : ∀ r < R, ∀ c < C, |(e r c).re| ≤ 64 ∧ |(e r c).im| ≤ 64) {s : Stored (Cx F)} (hs : StoresF lib M s) :
    (∃ N, GetMatrixF val s N) ∧ ∀ N, GetMatrixF val s N → ∃ e', IsMatrix N R C e' ∧
      ∀ r < R, ∀ c < C, |(e' r c).re - (e r c).re| ≤ u * |(e r c).re| + η ∧ |(e' r c).im - (e r c).im| ≤ u * |(e r c).im| + η := by
  obtain ⟨hex, h⟩ := get_is (val := val) hM hR hC hs
  exact ⟨hex, fun N hN => ⟨_, h N hN, fun r hr c hc => ⟨hA.cast _ (hb r hr c hc).1, hA.cast _ (hb r hr c hc).2⟩⟩⟩

omit [_root_.Zero F] [One F] [Add F] [Sub F] [Neg F] [Mul F] in
/-- A matrix of numbers of the precision of the gate comes back unchanged. -/
theorem C100_representable (hrep : ∀ x, val (lib.cast (val x)) = val x) {M : ExtMat} {R C : Nat} {e : Nat → Nat → ℂ} (hM : IsMatrix M R C e)
    (hR : R < 2 ^ 31) (hC : C < 2 ^ 31) (he : ∀ r < R, ∀ c < C, Representable val (e r c)) {s : Stored (Cx F)} (hs : StoresF lib M s) :
    (∃ N, GetMatrixF val s N) ∧ ∀ N, GetMatrixF val s N → IsMatrix N R C e := by
  obtain ⟨hex, h⟩ := get_is (val := val) hM hR hC hs
  exact ⟨hex, fun N hN => isMatrix_congr (h N hN) fun r hr c hc => widen_narrow hrep (he r hr c hc)⟩

omit [_root_.Zero F] [One F] [Add F] [Sub F] [Neg F] [Mul F] in
/-- A gate made from the matrix of a gate has the same matrix: only the first conversion rounds. -/
theorem C100_again (hrep : ∀ x, val (lib.cast (val x)) = val x) {M : ExtMat} {R C : Nat} {e : Nat → Nat → ℂ} (hM : IsMatrix M R C e)
    (hR : R < 2 ^ 31) (hC : C < 2 ^ 31) {s s' : Stored (Cx F)} {N N' : ExtMat} (hs : StoresF lib M s) (hN : GetMatrixF val s N)
    (hs' : StoresF lib N s') (hN' : GetMatrixF val s' N') : ∃ e', IsMatrix N R C e' ∧ IsMatrix N' R C e' :=
  have h := (get_is (val := val) hM hR hC hs).2 N hN
  ⟨_, h, (C100_representable hrep h hR hC (fun _ _ _ _ => widen_representable _) hs').2 N' hN'⟩

omit [_root_.Zero F] [One F] [Add F] [Sub F] [Neg F] [Mul F] in
/-- `get_matrix_internal` has the elements of `get_matrix`. -/
theorem C100_internal (hrep : ∀ x, val (lib.cast (val x)) = val x) {M : ExtMat} {R C : Nat} {e : Nat → Nat → ℂ} (hM : IsMatrix M R C e)
    (hR : R < 2 ^ 31) (hC : C < 2 ^ 31) {s : Stored (Cx F)} (hs : StoresF lib M s) {N : ExtMat} {e' : Nat → Nat → ℂ} (hN : GetMatrixF val s N)
    (he' : IsMatrix N R C e') :
    (∃ v, GetInternalF lib val s v) ∧ ∀ v, GetInternalF lib val s v → v.rows = R ∧ v.cols = C ∧
      ∀ r < R, ∀ c < C, ∃ z, (Stored.view v).entry r c = .ok z ∧ val z.re = (e' r c).re ∧ val z.im = (e' r c).im := by
  have hval : ∀ r < R, ∀ c < C, e' r c = widenC val (narrowC lib (e r c)) := fun r hr c hc => by
    have h1 := he'.2.2 r hr c hc
    rw [((get_is (val := val) hM hR hC hs).2 N hN).2.2 r hr c hc] at h1
    exact (Except.ok.inj h1).symm
  -- the three small forms
  have small : (∃ v, ∃ N', GetMatrixF val s N' ∧ ToInternalF lib N' v) ∧ ∀ v, (∃ N', GetMatrixF val s N' ∧ ToInternalF lib N' v) →
      v.rows = R ∧ v.cols = C ∧ ∀ r < R, ∀ c < C, ∃ z, (Stored.view v).entry r c = .ok z ∧ val z.re = (e' r c).re ∧ val z.im = (e' r c).im := by
    refine ⟨?_, ?_⟩
    · obtain ⟨h1, h2, -⟩ := he'
      obtain ⟨v, hv⟩ := toInternal_exists (lib := lib) (M := N) (by omega) (by omega)
      exact ⟨v, N, hN, hv⟩
    · rintro v ⟨N', hN', hv⟩
      obtain ⟨rfl, rfl, h3⟩ := isMatrix_data.1 ((get_is (val := val) hM hR hC hs).2 N' hN')
      obtain ⟨g1, g2, g3⟩ := toInternal_entry (by omega) (by omega) hv
      refine ⟨g1, g2, fun r hr c hc => ⟨_, if_pos ⟨by omega, by omega⟩, ?_⟩⟩
      rw [g2, g3 r hr c hc, h3 r hr c hc, hval r hr c hc]
      have := widen_narrow (lib := lib) hrep (widen_representable (val := val) (narrowC lib (e r c)))
      exact ⟨congrArg Complex.re this, congrArg Complex.im this⟩
  obtain ⟨hent, hout⟩ := ((C100_store (lib := lib) hM hR hC).2 s hs)
  cases s with
  | scalar z => exact small
  | two m => exact small
  | four m => exact small
  | view w =>
    have hsz : w.rows = R ∧ w.cols = C := by
      obtain ⟨rfl, rfl, -⟩ := isMatrix_data.1 hM
      unfold StoresF at hs
      split at hs
      · cases hs
      split at hs
      · cases hs
      split at hs
      · cases hs
      obtain ⟨v, hv, h⟩ := hs
      cases h
      exact ⟨hv.1, hv.2.1⟩
    refine ⟨⟨w, rfl, rfl, fun _ _ => rfl⟩, fun v hv => ?_⟩
    obtain ⟨h1, h2, h3⟩ := hv
    refine ⟨h1.trans hsz.1, h2.trans hsz.2, fun r hr c hc => ⟨_, if_pos ⟨by omega, by omega⟩, ?_⟩⟩
    have h4 := hent r hr c hc
    simp only [Stored.entry] at h4
    rw [if_pos ⟨by omega, by omega⟩] at h4
    rw [h2, h3 _ (by rw [hsz.1, hsz.2]; exact grid_lt hr hc), Except.ok.inj h4, hval r hr c hc]
    exact ⟨rfl, rfl⟩

/-! ## The inverse gate -/

/-- The inverse of a gate marked unitary has exactly the conjugate transpose of the matrix of the gate, without any further rounding. -/
theorem C100_inverse (hA : Accurate lib val u w η Ω) (hrep : ∀ x, val (lib.cast (val x)) = val x) {M : ExtMat} {R C : Nat} {e : Nat → Nat → ℂ}
    (hM : IsMatrix M R C e) (hR : R < 2 ^ 31) (hC : C < 2 ^ 31) {s : Stored (Cx F)} (hs : StoresF lib M s) {N : ExtMat} {e' : Nat → Nat → ℂ}
    (hN : GetMatrixF val s N) (he' : IsMatrix N R C e') :
    (∃ out, InverseF lib val true s out) ∧ ∀ out, InverseF lib val true s out → ∃ s', out = .ok s' ∧
      (∃ N', GetMatrixF val s' N') ∧ ∀ N', GetMatrixF val s' N' → IsMatrix N' C R fun r c => (starRingEnd ℂ) (e' c r) := by
  simp only [InverseF, if_true]
  constructor
  · have had := adjoint_is he'
    obtain ⟨s', hs'⟩ := (C100_store (lib := lib) had hC hR).1
    exact ⟨_, N, s', hN, hs', rfl⟩
  · rintro out ⟨N₁, s', hN₁, hs', rfl⟩
    have g := (get_is (val := val) hM hR hC hs).2
    have hsame : ∀ r < R, ∀ c < C, widenC val (narrowC lib (e r c)) = e' r c := fun r hr c hc => by
      have h1 := he'.2.2 r hr c hc
      rw [(g N hN).2.2 r hr c hc] at h1
      exact Except.ok.inj h1
    have hrepr : ∀ r < C, ∀ c < R, Representable val ((starRingEnd ℂ) (e' c r)) := fun r hr c hc => by
      rw [← hsame c hc r hr]
      refine ⟨(narrowC lib (e c r)).re, -(narrowC lib (e c r)).im, rfl, ?_⟩
      rw [hA.neg]
      rfl
    exact ⟨s', rfl, C100_representable hrep (adjoint_is (isMatrix_congr (g N₁ hN₁) hsame)) hC hR hrepr hs'⟩

/-- The inverse of the inverse has the matrix of the gate. -/
theorem C100_inverse_twice (hA : Accurate lib val u w η Ω) (hrep : ∀ x, val (lib.cast (val x)) = val x) {M : ExtMat} {R C : Nat}
    {e : Nat → Nat → ℂ} (hM : IsMatrix M R C e) (hR : R < 2 ^ 31) (hC : C < 2 ^ 31) {s s₁ s₂ : Stored (Cx F)} (hs : StoresF lib M s)
    {N N₂ : ExtMat} {e' : Nat → Nat → ℂ} (hN : GetMatrixF val s N) (he' : IsMatrix N R C e') (h₁ : InverseF lib val true s (.ok s₁))
    (h₂ : InverseF lib val true s₁ (.ok s₂)) (hN₂ : GetMatrixF val s₂ N₂) : IsMatrix N₂ R C e' := by
  obtain ⟨s', h, ⟨N₁, hN₁⟩, hall⟩ := (C100_inverse hA hrep hM hR hC hs hN he').2 _ h₁
  cases h
  have h₁' := h₁
  unfold InverseF at h₁'
  rw [if_pos rfl] at h₁'
  obtain ⟨N₀, s₀, hN₀, hs₀, h⟩ := h₁'
  cases h
  have had := adjoint_is ((get_is (val := val) hM hR hC hs).2 N₀ hN₀)
  obtain ⟨s', h, -, hall'⟩ := (C100_inverse hA hrep had hC hR hs₀ hN₁ (hall N₁ hN₁)).2 _ h₂
  cases h
  exact isMatrix_congr (hall' N₂ hN₂) fun r hr c hc => Complex.conj_conj _

omit [_root_.Zero F] [One F] [Add F] [Sub F] [Neg F] [Mul F] in
/-- A gate that is not marked unitary has no inverse: the call throws. -/
theorem C100_inverse_throws (s : Stored (Cx F)) : ∃ m, ∀ out, InverseF lib val false s out ↔ out = .error (.throw m) :=
  ⟨_, fun _ => Iff.rfl⟩

/-! ## Examples -/

/-- numbers of 53 bits are their own roundings -/
theorem bin_rep (x : Bin) : Bin.val (Bin.lib.cast (Bin.val x)) = Bin.val x := near_val x

/-- a matrix with eight rows and columns and entries that are not numbers of 53 bits -/
noncomputable def thirds : ExtMat := ⟨8, 8, fun a => ⟨a / 3, 1 / 3⟩⟩

theorem thirds_is : IsMatrix thirds 8 8 fun r c => ⟨((r * 8 + c : ℕ) : ℝ) / 3, 1 / 3⟩ :=
  isMatrix_data.2 ⟨rfl, rfl, fun _ _ _ _ => rfl⟩

theorem thirds_bound : ∀ r < 8, ∀ c < 8, |((⟨((r * 8 + c : ℕ) : ℝ) / 3, 1 / 3⟩ : ℂ)).re| ≤ 64 ∧
    |((⟨((r * 8 + c : ℕ) : ℝ) / 3, 1 / 3⟩ : ℂ)).im| ≤ 64 := by
  intro r hr c hc
  have h : ((r * 8 + c : ℕ) : ℝ) ≤ 64 := by exact_mod_cast (by omega : r * 8 + c ≤ 64)
  have h0 : (0 : ℝ) ≤ ((r * 8 + c : ℕ) : ℝ) := Nat.cast_nonneg _
  constructor
  · show |((r * 8 + c : ℕ) : ℝ) / 3| ≤ 64
    rw [abs_of_nonneg (by linarith)]
    linarith
  · show |(1 / 3 : ℝ)| ≤ 64
    rw [abs_of_nonneg (by norm_num)]
    norm_num

/-- It is stored in a view, read back with errors of at most half a unit in the last place, and inverted. -/
example : ∃ (s : Stored (Cx Bin)) (N : ExtMat) (e' : Nat → Nat → ℂ), StoresF Bin.lib thirds s ∧ GetMatrixF Bin.val s N ∧ IsMatrix N 8 8 e' ∧
    (∀ r < 8, ∀ c < 8, |(e' r c).re - ((r * 8 + c : ℕ) : ℝ) / 3| ≤ 2⁻¹ ^ 53 * |((r * 8 + c : ℕ) : ℝ) / 3|) ∧
    ∃ s₁ s₂ N₂, InverseF Bin.lib Bin.val true s (.ok s₁) ∧ InverseF Bin.lib Bin.val true s₁ (.ok s₂) ∧ GetMatrixF Bin.val s₂ N₂ ∧
      IsMatrix N₂ 8 8 e' := by
  have hA := Bin.accurate (Ω := 64) le_rfl
  obtain ⟨s, hs⟩ := (C100_store (lib := Bin.lib) thirds_is (by norm_num) (by norm_num)).1
  obtain ⟨⟨N, hN⟩, hg⟩ := C100_get hA thirds_is (by norm_num) (by norm_num) thirds_bound hs
  obtain ⟨e', he', hb⟩ := hg N hN
  obtain ⟨⟨out, h₁⟩, hall⟩ := C100_inverse hA bin_rep thirds_is (by norm_num) (by norm_num) hs hN he'
  obtain ⟨s₁, rfl, ⟨N₁, hN₁⟩, hm₁⟩ := hall out h₁
  have h₁' := h₁
  unfold InverseF at h₁'
  rw [if_pos rfl] at h₁'
  obtain ⟨N₀, s₀, hN₀, hs₀, h⟩ := h₁'
  cases h
  obtain ⟨e₀, he₀, -⟩ := hg N₀ hN₀
  obtain ⟨⟨out, h₂⟩, hall₂⟩ := C100_inverse hA bin_rep (adjoint_is he₀) (by norm_num) (by norm_num) hs₀ hN₁ (hm₁ N₁ hN₁)
  obtain ⟨s₂, rfl, ⟨N₂, hN₂⟩, -⟩ := hall₂ out h₂
  refine ⟨s, N, e', hs, hN, he', fun r hr c hc => ?_, s₁, s₂, N₂, h₁, h₂, hN₂, ?_⟩
  · have := (hb r hr c hc).1
    rwa [add_zero] at this
  · exact C100_inverse_twice hA bin_rep thirds_is (by norm_num) (by norm_num) hs hN he' h₁ h₂ hN₂

/-- A matrix with two rows and four columns is stored as well, with its own number of columns. -/
example {e : Nat → Nat → ℂ} {M : ExtMat} (hM : IsMatrix M 2 4 e) : ∃ s : Stored (Cx Bin), StoresF Bin.lib M s ∧
    s.entry 1 3 = .ok ⟨Bin.near (e 1 3).re, Bin.near (e 1 3).im⟩ ∧ ∃ m, s.entry 2 0 = .error (.ub m) := by
  obtain ⟨⟨s, hs⟩, h⟩ := C100_store (lib := Bin.lib) hM (by norm_num) (by norm_num)
  exact ⟨s, hs, (h s hs).1 1 (by norm_num) 3 (by norm_num), (h s hs).2 2 0 (by omega)⟩

/-- The matrix of X is stored exactly: `get_matrix` and `get_matrix_internal` return it. -/
example : ∃ (M : ExtMat) (s : Stored (Cx Bin)) (N : ExtMat) (v : MatView (Cx Bin)),
    IsMatrix M 2 2 (fun r c => if r = c then 0 else 1) ∧ StoresF Bin.lib M s ∧ GetMatrixF Bin.val s N ∧
    IsMatrix N 2 2 (fun r c => if r = c then 0 else 1) ∧ GetInternalF Bin.lib Bin.val s v ∧
    ∃ z, (Stored.view v).entry 0 1 = .ok z ∧ Bin.val z.re = 1 := by
  have hM : IsMatrix ⟨2, 2, fun a => if a / 2 = a % 2 then 0 else 1⟩ 2 2 (fun r c => if r = c then 0 else 1) :=
    isMatrix_data.2 ⟨rfl, rfl, fun r hr c hc => by simp only [grid_div hc, grid_mod hc]⟩
  obtain ⟨s, hs⟩ := (C100_store (lib := Bin.lib) hM (by norm_num) (by norm_num)).1
  obtain ⟨⟨N, hN⟩, h⟩ := C100_representable bin_rep hM (by norm_num) (by norm_num) (fun r _ c _ => by
    by_cases h : r = c
    · rw [if_pos h]
      exact ⟨0, 0, Bin.val_zero.symm, Bin.val_zero.symm⟩
    · rw [if_neg h]
      exact ⟨1, 0, Bin.val_one.symm, Bin.val_zero.symm⟩) hs
  obtain ⟨⟨v, hv⟩, hi⟩ := C100_internal bin_rep hM (by norm_num) (by norm_num) hs hN (h N hN)
  obtain ⟨z, hz, h1, -⟩ := (hi v hv).2.2 0 (by norm_num) 1 (by norm_num)
  refine ⟨_, s, N, v, hM, hs, hN, h N hN, hv, z, hz, ?_⟩
  rw [h1]
  simp

end Verif.Props
