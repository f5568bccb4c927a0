import Verif.Proofs.FloatFrob

/-! # Rounding errors of the block kernels and of the two-pass kernels on density matrices -/

namespace Verif.Proofs
open Verif Verif.Spec Verif.Model
open scoped ComplexConjugate
attribute [-simp] BitVec.getLsbD_eq_getElem

/-! ## Blocks -/

/-- the base of the block of `j` -/
def baseOf (t j : U64) : U64 := j &&& ~~~t

theorem baseOf_isBase {n : Nat} {t j : U64} (hj : InState (2 ^ n) j) : IsBase (2 ^ n) t 0 0 (baseOf t j) := by
  refine ⟨?_, ?_, ?_⟩
  · unfold InState baseOf at *
    rw [BitVec.toNat_and]
    exact lt_of_le_of_lt Nat.and_le_left hj
  · intro i hi
    unfold baseOf
    rw [BitVec.getLsbD_and, BitVec.getLsbD_not, hi]; simp
  · intro i hi; simp at hi

theorem inBlock_base {n : Nat} {t b j : U64} (hb : IsBase (2 ^ n) t 0 0 b) : InBlock t b j ↔ baseOf t j = b := by
  constructor
  · intro h
    apply U64.ext; intro i hi
    unfold baseOf
    rw [BitVec.getLsbD_and, BitVec.getLsbD_not]
    cases ht : t.getLsbD i with
    | true => rw [hb.target i ht]; simp
    | false => rw [h i hi ht]; simp [hi]
  · rintro rfl i hi ht
    unfold baseOf
    rw [BitVec.getLsbD_and, BitVec.getLsbD_not, ht]; simp [hi]

/-- the indices of a block, listed -/
structure CellsOK (n : Nat) (t : U64) {k : Nat} (cell : U64 → Fin k → U64) : Prop where
  block : ∀ b, IsBase (2 ^ n) t 0 0 b → ∀ j, InBlock t b j ↔ ∃ i, j = cell b i
  inj : ∀ b, IsBase (2 ^ n) t 0 0 b → Function.Injective (cell b)

section
variable {n k : Nat} {t : U64} {cell : U64 → Fin k → U64}

theorem CellsOK.iff (hc : CellsOK n t cell) {b : U64} (hb : IsBase (2 ^ n) t 0 0 b) (j : U64) : baseOf t j = b ↔ ∃ i, j = cell b i := by
  rw [← inBlock_base hb, hc.block b hb]

theorem CellsOK.mem (hc : CellsOK n t cell) (h : MasksOK 1 n t 0 0) {b : U64} (hb : IsBase (2 ^ n) t 0 0 b) (i : Fin k) :
    InState (2 ^ n) (cell b i) := by
  have := (inBlock_mem h (b := b) (by rwa [Nat.one_mul]) ((hc.block b hb _).2 ⟨i, rfl⟩)).1
  rwa [Nat.one_mul] at this

/-- every index lies in `k` blocks of `k` indices each -/
theorem CellsOK.sum (hc : CellsOK n t cell) (h : MasksOK 1 n t 0 0) (hn : n ≤ 63) (G : U64 → ℝ) :
    ∑ j ∈ indices (2 ^ n), ∑ x, G (cell (baseOf t j) x) = k * ∑ j ∈ indices (2 ^ n), G j := by
  classical
  have hS : ∀ {j}, j ∈ indices (2 ^ n) ↔ InState (2 ^ n) j := fun {j} => mem_indices (pow64 hn)
  have e : ∀ j ∈ indices (2 ^ n), (Finset.univ.image (cell (baseOf t j))) = (indices (2 ^ n)).filter (fun i => baseOf t i = baseOf t j) := by
    intro j hj
    have hb := baseOf_isBase (t := t) (hS.1 hj)
    ext i
    simp only [Finset.mem_image, Finset.mem_univ, true_and, Finset.mem_filter]
    constructor
    · rintro ⟨x, rfl⟩
      exact ⟨hS.2 (hc.mem h hb x), (hc.iff hb _).2 ⟨x, rfl⟩⟩
    · rintro ⟨_, hi⟩
      obtain ⟨x, hx⟩ := (hc.iff hb _).1 hi
      exact ⟨x, hx.symm⟩
  have e1 : ∀ j ∈ indices (2 ^ n), ∑ x, G (cell (baseOf t j) x) =
      ∑ i ∈ indices (2 ^ n), if baseOf t i = baseOf t j then G i else 0 := by
    intro j hj
    rw [← Finset.sum_filter, ← e j hj, Finset.sum_image]
    intro x _ y _ hxy
    exact hc.inj _ (baseOf_isBase (hS.1 hj)) hxy
  rw [Finset.sum_congr rfl e1, Finset.sum_comm, Finset.mul_sum]
  refine Finset.sum_congr rfl fun i hi => ?_
  have e2 : (indices (2 ^ n)).filter (fun j => baseOf t i = baseOf t j) = Finset.univ.image (cell (baseOf t i)) := by
    rw [e i hi]
    ext j; simp only [Finset.mem_filter, eq_comm]
  rw [← Finset.sum_filter, e2, Finset.sum_const, nsmul_eq_mul, Finset.card_image_of_injective _ (hc.inj _ (baseOf_isBase (hS.1 hi))),
    Finset.card_univ, Fintype.card_fin]

theorem CellsOK.sum2 (hc : CellsOK n t cell) (h : MasksOK 1 n t 0 0) (hn : n ≤ 63) (G : U64 × U64 → ℝ) :
    ∑ r ∈ indices (2 ^ n), ∑ c ∈ indices (2 ^ n), ∑ x, ∑ y, G (cell (baseOf t r) x, cell (baseOf t c) y) =
      k ^ 2 * ∑ r ∈ indices (2 ^ n), ∑ c ∈ indices (2 ^ n), G (r, c) := by
  have e : ∀ r, ∑ c ∈ indices (2 ^ n), ∑ x, ∑ y, G (cell (baseOf t r) x, cell (baseOf t c) y) =
      ∑ x, k * ∑ c ∈ indices (2 ^ n), G (cell (baseOf t r) x, c) := by
    intro r
    rw [Finset.sum_comm]
    exact Finset.sum_congr rfl fun x _ => hc.sum h hn (fun c => G (cell (baseOf t r) x, c))
  rw [Finset.sum_congr rfl fun r _ => e r, hc.sum h hn (fun r => k * ∑ c ∈ indices (2 ^ n), G (r, c)), ← Finset.mul_sum]
  ring

end

section
variable {F : Type} {val : F → ℝ}

local notation "⟪" x "⟫" => cval val x

/-- the launches `ls` conjugate a matrix of moderate size by the operator `G`, up to rounding errors -/
def MCloseTo (n : Nat) (val : F → ℝ) (ε η : ℝ) (ls : List (MLaunch (Cx F))) (G : (U64 → ℂ) → U64 → ℂ) : Prop :=
  ∀ M : U64 × U64 → Cx F, frob (2 ^ n) (fun p => cval val (M p)) ≤ 2 → ∃ M', MRuns (2 ^ n) ls M M' ∧
    frob (2 ^ n) (fun p => cval val (M' p) - onMatrix (2 ^ n) G (fun p => cval val (M p)) p) ≤
      8192 * (ε * frob (2 ^ n) (fun p => cval val (M p)) + η * 2 ^ n)

theorem sum_sq_le {k : Nat} (f : Fin k → Fin k → ℝ) : (∑ x, ∑ y, f x y) ^ 2 ≤ (k : ℝ) ^ 2 * ∑ x, ∑ y, f x y ^ 2 := by
  have h1 := sq_sum_le_card_mul_sum_sq (s := (Finset.univ : Finset (Fin k × Fin k))) (f := fun p => f p.1 p.2)
  rw [Fintype.sum_prod_type, Fintype.sum_prod_type, Finset.card_univ, Fintype.card_prod, Fintype.card_fin] at h1
  push_cast at h1
  rw [sq (k : ℝ)]
  exact h1

/-- A kernel on blocks: if the errors of the elements of a block are small compared to the block, the error of the matrix
is small. -/
theorem block_close {n k : Nat} {t : U64} (h : MasksOK 1 n t 0 0) (hn : n < 32) {cell : U64 → Fin k → U64} (hcell : CellsOK n t cell)
    {G : (U64 → ℂ) → U64 → ℂ} (E : Fin k → Fin k → ℂ) (hG : ∀ b, IsBase (2 ^ n) t 0 0 b → ∀ ψ i, G ψ (cell b i) = ∑ x, E i x * ψ (cell b x))
    (g : (Fin k → U64) → (Fin k → U64) → Prog (U64 × U64) (Cx F) Unit)
    (hwithin : ∀ r c, (g r c).Within (fun p => (∃ i, p.1 = r i) ∧ ∃ j, p.2 = c j))
    {C D ε η : ℝ} (hC0 : 0 ≤ C) (hD0 : 0 ≤ D) (hε : 0 ≤ ε) (hη : 0 ≤ η) (hC : (k : ℝ) ^ 2 * C ≤ 5600 * ε) (hD : D ≤ 5600 * η)
    (hexec : ∀ (r c : Fin k → U64) (M : U64 × U64 → Cx F), Function.Injective r → Function.Injective c →
      (∀ x y, ‖⟪M (r x, c y)⟫‖ ≤ 2) → ∀ i j,
      ‖⟪(g r c).exec M (r i, c j)⟫ - ∑ y, conj (E j y) * ∑ x, E i x * ⟪M (r x, c y)⟫‖ ≤ C * (∑ x, ∑ y, ‖⟪M (r x, c y)⟫‖) + D) :
    MCloseTo n val ε η [pairFor (workItems (2 ^ n) t) (workItems (2 ^ n) t)
      (fun ir ic => g (cell (insertZero ir t)) (cell (insertZero ic t)))] G := by
  classical
  intro M hM
  have hn' : n ≤ 63 := by omega
  have hS : ∀ {j}, j ∈ indices (2 ^ n) ↔ InState (2 ^ n) j := fun {j} => mem_indices (pow64 hn')
  set M' : U64 × U64 → Cx F := fun p => if InMat (2 ^ n) p then (g (cell (baseOf t p.1)) (cell (baseOf t p.2))).exec M p else M p with hM'
  refine ⟨M', ⟨_, pairKernel_runs h hn (fun br bc => g (cell br) (cell bc)) M M' ?_ ?_ ?_, rfl⟩, ?_⟩
  · intro br bc hr hc
    refine Prog.within_mono ?_ (hwithin _ _)
    rintro p ⟨hp1, hp2⟩
    exact ⟨(hcell.block br hr _).2 hp1, (hcell.block bc hc _).2 hp2⟩
  · rintro br bc ⟨p1, p2⟩ hr hc h1 h2
    have m1 := (inBlock_mem h (by rwa [Nat.one_mul]) h1).1
    have m2 := (inBlock_mem h (by rwa [Nat.one_mul]) h2).1
    rw [Nat.one_mul] at m1 m2
    have b1 := (inBlock_base hr).1 h1
    have b2 := (inBlock_base hc).1 h2
    dsimp only at b1 b2
    rw [hM']
    dsimp only
    rw [if_pos ⟨m1, m2⟩, b1, b2]
  · intro p hp
    rw [hM']
    exact if_neg hp
  · have key : ∀ r ∈ indices (2 ^ n), ∀ c ∈ indices (2 ^ n),
        ‖⟪M' (r, c)⟫ - onMatrix (2 ^ n) G (fun p => ⟪M p⟫) (r, c)‖ ^ 2 ≤
          2 * C ^ 2 * k ^ 2 * (∑ x, ∑ y, ‖⟪M (cell (baseOf t r) x, cell (baseOf t c) y)⟫‖ ^ 2) + 2 * D ^ 2 := by
      intro r hr c hc
      have hr' := hS.1 hr
      have hc' := hS.1 hc
      have br := baseOf_isBase (t := t) hr'
      have bc := baseOf_isBase (t := t) hc'
      obtain ⟨i, hi⟩ := (hcell.iff br r).1 rfl
      obtain ⟨j, hj⟩ := (hcell.iff bc c).1 rfl
      have e := hexec _ _ M (hcell.inj _ br) (hcell.inj _ bc) (fun x y => le_trans (cell_le_frob (pow64 hn') (fun p => ⟪M p⟫)
        (p := (cell (baseOf t r) x, cell (baseOf t c) y)) ⟨hcell.mem h br x, hcell.mem h bc y⟩) hM) i j
      rw [← hi, ← hj] at e
      have e1 : onMatrix (2 ^ n) G (fun p => ⟪M p⟫) (r, c) =
          ∑ y, conj (E j y) * ∑ x, E i x * ⟪M (cell (baseOf t r) x, cell (baseOf t c) y)⟫ := by
        unfold onMatrix
        rw [if_pos ⟨hr', hc'⟩]
        dsimp only
        conv_lhs => rw [hj]
        rw [hG _ bc, map_sum]
        refine Finset.sum_congr rfl fun y _ => ?_
        rw [map_mul, Complex.conj_conj]
        conv_lhs => rw [hi]
        rw [hG _ br]
      have e2 : M' (r, c) = (g (cell (baseOf t r)) (cell (baseOf t c))).exec M (r, c) := if_pos ⟨hr', hc'⟩
      rw [e1, e2]
      have e3 := pow_le_pow_left₀ (norm_nonneg _) e 2
      refine le_trans e3 ?_
      have e4 := sum_sq_le fun x y => ‖⟪M (cell (baseOf t r) x, cell (baseOf t c) y)⟫‖
      have e5 := mul_le_mul_of_nonneg_left e4 (by positivity : 0 ≤ 2 * C ^ 2)
      nlinarith [sq_nonneg (C * (∑ x, ∑ y, ‖⟪M (cell (baseOf t r) x, cell (baseOf t c) y)⟫‖) - D)]
    set f := frob (2 ^ n) (fun p => ⟪M p⟫) with hf
    have hf0 : 0 ≤ f := frob_nonneg _ _
    have hsum : frob (2 ^ n) (fun p => ⟪M' p⟫ - onMatrix (2 ^ n) G (fun p => ⟪M p⟫) p) ^ 2 ≤
        2 * (k ^ 2 * C) ^ 2 * f ^ 2 + 2 * (D * 2 ^ n) ^ 2 := by
      rw [frob_sq (pow64 hn')]
      refine le_trans (Finset.sum_le_sum fun r hr => Finset.sum_le_sum fun c hc => key r hr c hc) ?_
      simp only [Finset.sum_add_distrib, ← Finset.mul_sum, Finset.sum_const, nsmul_eq_mul]
      rw [hcell.sum2 h hn' (fun p => ‖⟪M p⟫‖ ^ 2), hf, frob_sq (pow64 hn')]
      have hcard : ((indices (2 ^ n)).card : ℝ) ≤ 2 ^ n := by exact_mod_cast card_indices' (dim := 2 ^ n)
      have hc0 : (0 : ℝ) ≤ ((indices (2 ^ n)).card : ℝ) := Nat.cast_nonneg _
      have h2 : ((indices (2 ^ n)).card : ℝ) * (((indices (2 ^ n)).card : ℝ) * (2 * D ^ 2)) ≤ 2 * (D * 2 ^ n) ^ 2 := by
        have : ((indices (2 ^ n)).card : ℝ) * ((indices (2 ^ n)).card : ℝ) ≤ 2 ^ n * 2 ^ n := mul_le_mul hcard hcard hc0 (by positivity)
        nlinarith [sq_nonneg D]
      have h3 : 2 * C ^ 2 * (k : ℝ) ^ 2 * ((k : ℝ) ^ 2 * ∑ r ∈ indices (2 ^ n), ∑ c ∈ indices (2 ^ n), ‖⟪M (r, c)⟫‖ ^ 2) =
        2 * ((k : ℝ) ^ 2 * C) ^ 2 * ∑ r ∈ indices (2 ^ n), ∑ c ∈ indices (2 ^ n), ‖⟪M (r, c)⟫‖ ^ 2 := by ring
      rw [h3]
      linarith
    refine abs_le_of_sq_le_sq' (le_trans hsum ?_) (by positivity) |>.2
    have a1 : ((k : ℝ) ^ 2 * C) ^ 2 ≤ (5600 * ε) ^ 2 := pow_le_pow_left₀ (by positivity) hC 2
    have a2 : D ^ 2 ≤ (5600 * η) ^ 2 := pow_le_pow_left₀ hD0 hD 2
    have a3 := mul_le_mul_of_nonneg_right a1 (sq_nonneg f)
    have a4 := mul_le_mul_of_nonneg_right a2 (sq_nonneg ((2 : ℝ) ^ n))
    have a5 : 0 ≤ (ε * f) * (η * 2 ^ n) := by positivity
    have a6 : 0 ≤ (ε * f) ^ 2 := by positivity
    have a7 : 0 ≤ (η * 2 ^ n) ^ 2 := by positivity
    nlinarith

/-! ## Two passes -/

theorem normSq_applyMat_conj {dim : Nat} {ts : List Nat} {U : Nat → Nat → ℂ} {cs : List (Nat × Bool)}
    (h : ∀ ψ, normSq dim (applyMat ts U cs ψ) ≤ normSq dim ψ) (ψ : U64 → ℂ) :
    normSq dim (applyMat ts (fun r s => conj (U r s)) cs ψ) ≤ normSq dim ψ := by
  have h1 := h (fun i => conj (ψ i))
  have e1 : normSq dim (applyMat ts (fun r s => conj (U r s)) cs ψ) = normSq dim (applyMat ts U cs (fun i => conj (ψ i))) :=
    Finset.sum_congr rfl fun j _ => by rw [applyMat_conj, Complex.normSq_conj]
  have e2 : normSq dim (fun i => conj (ψ i)) = normSq dim ψ :=
    Finset.sum_congr rfl fun j _ => by rw [Complex.normSq_conj]
  rw [e1, ← e2]; exact h1

theorem applyMat_minus (ts : List Nat) (U : Nat → Nat → ℂ) (cs : List (Nat × Bool)) (ψ φ : U64 → ℂ) (j : U64) :
    applyMat ts U cs (fun i => ψ i - φ i) j = applyMat ts U cs ψ j - applyMat ts U cs φ j := by
  have h := congrFun (applyMat_add (ts := ts) (cs := cs) U (fun i => ψ i - φ i) φ) j
  simp only [sub_add_cancel] at h
  exact eq_sub_of_add_eq h.symm

/-- the error of one line -/
theorem line_close {dim : Nat} (hd : dim ≤ 2 ^ 64) {ε η : ℝ} {N N' : Nat} {pool : Fin N → Prog U64 (Cx F) Unit} {pool' : Fin N' → Prog U64 ℂ Unit}
    {FL : (U64 → Cx F) → U64 → Cx F} {G : (U64 → ℂ) → U64 → ℂ} (hF : ∀ m, Runs (InState dim) pool m (FL m))
    (hG : ∀ m, Runs (InState dim) pool' m (onState dim G m)) (hc : CloseTo dim val ε η (.par _ pool) (.par _ pool'))
    (m : U64 → Cx F) (hm : ∀ j, InState dim j → ‖⟪m j⟫‖ ≤ 4) :
    √(normSq dim (fun j => ⟪FL m j⟫ - G (fun j => ⟪m j⟫) j)) ≤ 256 * (ε * √(normSq dim (fun j => ⟪m j⟫)) + η * √(dim : ℝ)) := by
  obtain ⟨m', m'', h1, h2, h3⟩ := hc m hm
  have e1 : m' = FL m := Runs.unique h1 (hF m)
  have e2 : m'' = onState dim G (fun j => ⟪m j⟫) := Runs.unique h2 (hG _)
  rw [e1, e2] at h3
  refine le_trans (le_of_eq ?_) h3
  congr 1
  refine Finset.sum_congr rfl fun j hj => ?_
  have := (mem_indices hd).1 hj
  unfold onState
  dsimp only
  rw [if_pos this]

theorem two_pass_close {n N : Nat} (hn : n < 32) (hN : N ≤ 2 ^ n) {ts : List Nat} {U : Nat → Nat → ℂ} {cs : List (Nat × Bool)}
    {bodyL bodyR : U64 → Prog U64 (Cx F) Unit} {bodyL' bodyR' : U64 → Prog U64 ℂ Unit}
    {L R : U64 → U64 → Prog (U64 × U64) (Cx F) Unit}
    (hL : ∀ it col, L it col = (bodyL it).mapAddr (fun r => (r, col)))
    (hR : ∀ row it, R row it = (bodyR it).mapAddr (fun c => (row, c)))
    (rL : ∀ m, ∃ m', Runs (InState (2 ^ n)) (parallelFor N bodyL) m m')
    (rR : ∀ m, ∃ m', Runs (InState (2 ^ n)) (parallelFor N bodyR) m m')
    {ε η : ℝ} (hε : 0 ≤ ε) (hη : 0 ≤ η) (hsmall : 512 * (2 * ε + η * 2 ^ n) ≤ 1)
    (cL : CloseTo (2 ^ n) val ε η (.par _ (parallelFor N bodyL)) (.par _ (parallelFor N bodyL')))
    (cR : CloseTo (2 ^ n) val ε η (.par _ (parallelFor N bodyR)) (.par _ (parallelFor N bodyR')))
    (h1 : ∀ m, Runs (InState (2 ^ n)) (parallelFor N bodyL') m (onState (2 ^ n) (applyMat ts U cs) m))
    (h2 : ∀ m, Runs (InState (2 ^ n)) (parallelFor N bodyR') m (onState (2 ^ n) (applyMat ts (fun r s => conj (U r s)) cs) m))
    (hcon : ∀ ψ, normSq (2 ^ n) (applyMat ts U cs ψ) ≤ normSq (2 ^ n) ψ) :
    MCloseTo n val ε η [pairFor N (2 ^ n) L, pairFor (2 ^ n) N R] (applyMat ts U cs) := by
  intro M hM
  have hn' : n ≤ 63 := by omega
  have h64 := pow64 hn'
  have hS : ∀ {j}, j ∈ indices (2 ^ n) ↔ InState (2 ^ n) j := fun {j} => mem_indices h64
  have hd : (2 : Nat) ^ n < 2 ^ 32 := Nat.pow_lt_pow_right (by norm_num) hn
  have hNd : N * 2 ^ n < 2 ^ 64 := lt_of_le_of_lt (Nat.mul_le_mul_right _ hN) (by
    calc 2 ^ n * 2 ^ n < 2 ^ 32 * 2 ^ 32 := Nat.mul_lt_mul'' hd hd
      _ = 2 ^ 64 := by norm_num)
  choose FL hFL using rL
  choose FR hFR using rR
  set G := applyMat ts U cs with hG
  set K := applyMat ts (fun r s => conj (U r s)) cs with hK
  set M1 : U64 × U64 → Cx F := fun p => if InState (2 ^ n) p.2 then FL (fun r => M (r, p.2)) p.1 else M p with hM1
  set M2 : U64 × U64 → Cx F := fun p => if InState (2 ^ n) p.1 then FR (fun c => M1 (p.1, c)) p.2 else M1 p with hM2
  have r1 := rows_run hNd (by omega) hL _ hFL M
  have r2 := cols_run (by rwa [Nat.mul_comm]) (by omega) (by omega) hR _ hFR M1
  refine ⟨M2, ⟨_, r1, _, r2, rfl⟩, ?_⟩
  set f := frob (2 ^ n) (fun p => ⟪M p⟫) with hf
  have hf0 : 0 ≤ f := frob_nonneg _ _
  have hdim : ((2 ^ n : Nat) : ℝ) = 2 ^ n := by push_cast; rfl
  have hp : (0 : ℝ) ≤ η * 2 ^ n := by positivity
  -- first pass
  have e1 : frob (2 ^ n) (fun p => ⟪M1 p⟫ - G (fun r => ⟪M (r, p.2)⟫) p.1) ≤ 512 * (ε * f + η * 2 ^ n) := by
    rw [← hdim]
    refine frob_lines hε hη (fun j => normSq_nonneg' _ _) (fun j => normSq_nonneg' _ _) (frob_cols h64 _) (frob_cols h64 _) hf0 ?_
    intro c hc
    have hc' := hS.1 hc
    have := line_close h64 hFL h1 cL (fun r => M (r, c)) (fun r hr => le_trans (cell_le_frob h64 (fun p => ⟪M p⟫) (p := (r, c)) ⟨hr, hc'⟩)
      (le_trans hM (by norm_num)))
    simp only [hM1, if_pos hc']
    exact this
  have e2 : frob (2 ^ n) (fun p => ⟪M1 p⟫) ≤ f + 512 * (ε * f + η * 2 ^ n) := by
    have a := frob_add n (fun p => ⟪M1 p⟫ - G (fun r => ⟪M (r, p.2)⟫) p.1) (fun p => G (fun r => ⟪M (r, p.2)⟫) p.1)
    simp only [sub_add_cancel] at a
    have b := frob_cols_le hn' hcon (fun p => ⟪M p⟫)
    linarith
  have hb : 512 * (ε * f + η * 2 ^ n) ≤ 1 := by
    have := mul_le_mul_of_nonneg_left hM hε
    linarith
  -- second pass
  have e3 : frob (2 ^ n) (fun p => ⟪M2 p⟫ - K (fun c => ⟪M1 (p.1, c)⟫) p.2) ≤
      512 * (ε * frob (2 ^ n) (fun p => ⟪M1 p⟫) + η * 2 ^ n) := by
    rw [← hdim]
    refine frob_lines hε hη (fun j => normSq_nonneg' _ _) (fun j => normSq_nonneg' _ _) (frob_rows h64 _) (frob_rows h64 _) (frob_nonneg _ _) ?_
    intro r hr
    have hr' := hS.1 hr
    have := line_close h64 hFR h2 cR (fun c => M1 (r, c)) (fun c hc => le_trans (cell_le_frob h64 (fun p => ⟪M1 p⟫) (p := (r, c)) ⟨hr', hc⟩)
      (by linarith))
    simp only [hM2, if_pos hr']
    exact this
  have e4 : frob (2 ^ n) (fun p => K (fun c => ⟪M1 (p.1, c)⟫ - G (fun r => ⟪M (r, c)⟫) p.1) p.2) ≤
      frob (2 ^ n) (fun p => ⟪M1 p⟫ - G (fun r => ⟪M (r, p.2)⟫) p.1) :=
    frob_rows_le hn' (normSq_applyMat_conj hcon) (fun p => ⟪M1 p⟫ - G (fun r => ⟪M (r, p.2)⟫) p.1)
  have e5 : frob (2 ^ n) (fun p => ⟪M2 p⟫ - onMatrix (2 ^ n) G (fun p => ⟪M p⟫) p) =
      frob (2 ^ n) (fun p => (⟪M2 p⟫ - K (fun c => ⟪M1 (p.1, c)⟫) p.2) +
        K (fun c => ⟪M1 (p.1, c)⟫ - G (fun r => ⟪M (r, c)⟫) p.1) p.2) := by
    refine frob_congr hn' fun p hp => ?_
    have a : onMatrix (2 ^ n) G (fun p => ⟪M p⟫) p = K (fun c => G (fun r => ⟪M (r, c)⟫) p.1) p.2 := by
      unfold onMatrix
      rw [if_pos (show p.1.toNat < 2 ^ n ∧ p.2.toNat < 2 ^ n from hp), hK, applyMat_conj]
    rw [a, hK, applyMat_minus]
    ring
  rw [e5]
  refine le_trans (frob_add _ _ _) ?_
  have hεs : 512 * ε ≤ 1 := by linarith
  have e6 : ε * frob (2 ^ n) (fun p => ⟪M1 p⟫) ≤ ε * f + ε * (512 * (ε * f + η * 2 ^ n)) := by
    rw [← mul_add]; exact mul_le_mul_of_nonneg_left e2 hε
  have e7 : 512 * (ε * (512 * (ε * f + η * 2 ^ n))) ≤ 512 * (ε * f + η * 2 ^ n) := by
    have : 0 ≤ 512 * (ε * f + η * 2 ^ n) := by positivity
    nlinarith
  have : 0 ≤ ε * f := by positivity
  linarith

end
end Verif.Proofs
