import Verif.Model.FloatDensity
import Verif.Proofs.FloatBlock

/-! # Rounding errors of the one-target kernels on density matrices -/

namespace Verif.Proofs
open Verif Verif.Spec Verif.Model
open scoped ComplexConjugate
attribute [-simp] BitVec.getLsbD_eq_getElem

/-! ## What the block kernels store, in any arithmetic -/

section
variable {R : Type} [Mul R]

/-- multiply, or leave alone -/
def mulOpt : Option R → R → R
  | none, a => a
  | some x, a => a * x

theorem diag2_exec (x00 x01 x10 x11 : R) (r c : Fin 2 → U64) (M : U64 × U64 → R) (hr : Function.Injective r) (hc : Function.Injective c)
    (i j : Fin 2) :
    (do mulAt (r 0, c 0) x00
        mulAt (r 0, c 1) x01
        mulAt (r 1, c 0) x10
        mulAt (r 1, c 1) x11 : Prog (U64 × U64) R Unit).exec M (r i, c j) =
      mulOpt ((![![some x00, some x01], ![some x10, some x11]] : Fin 2 → Fin 2 → Option R) i j) (M (r i, c j)) := by
  fin_cases i <;> fin_cases j <;>
    simp [mulAt, Prog.store_def, Prog.exec, Function.update_apply, hr.eq_iff, hc.eq_iff, mulOpt]

theorem phase2_exec (x01 x10 : R) (r c : Fin 2 → U64) (M : U64 × U64 → R) (hr : Function.Injective r) (hc : Function.Injective c)
    (i j : Fin 2) :
    (do mulAt (r 0, c 1) x01
        mulAt (r 1, c 0) x10 : Prog (U64 × U64) R Unit).exec M (r i, c j) =
      mulOpt ((![![none, some x01], ![some x10, none]] : Fin 2 → Fin 2 → Option R) i j) (M (r i, c j)) := by
  fin_cases i <;> fin_cases j <;>
    simp [mulAt, Prog.store_def, Prog.exec, Function.update_apply, hr.eq_iff, hc.eq_iff, mulOpt]

theorem diag4_exec (e0 e1 d0 d1 x00 x01 x10 x11 : R) (r c : Fin 4 → U64) (M : U64 × U64 → R) (hr : Function.Injective r)
    (hc : Function.Injective c) (i j : Fin 4) :
    (do mulAt (r 2, c 0) e0
        mulAt (r 2, c 1) e1
        mulAt (r 3, c 0) e0
        mulAt (r 3, c 1) e1
        mulAt (r 0, c 2) d0
        mulAt (r 0, c 3) d0
        mulAt (r 1, c 2) d1
        mulAt (r 1, c 3) d1
        mulAt (r 0, c 0) x00
        mulAt (r 0, c 1) x01
        mulAt (r 1, c 0) x10
        mulAt (r 1, c 1) x11 : Prog (U64 × U64) R Unit).exec M (r i, c j) =
      mulOpt ((![![some x00, some x01, some d0, some d0], ![some x10, some x11, some d1, some d1], ![some e0, some e1, none, none],
        ![some e0, some e1, none, none]] : Fin 4 → Fin 4 → Option R) i j) (M (r i, c j)) := by
  fin_cases i <;> fin_cases j <;>
    simp [mulAt, Prog.store_def, Prog.exec, Function.update_apply, hr.eq_iff, hc.eq_iff, mulOpt]

theorem phase4_exec (p e : R) (r c : Fin 4 → U64) (M : U64 × U64 → R) (hr : Function.Injective r)
    (hc : Function.Injective c) (i j : Fin 4) :
    (do mulAt (r 1, c 2) p
        mulAt (r 1, c 3) p
        mulAt (r 1, c 0) p
        mulAt (r 2, c 1) e
        mulAt (r 3, c 1) e
        mulAt (r 0, c 1) e : Prog (U64 × U64) R Unit).exec M (r i, c j) =
      mulOpt ((![![none, some e, none, none], ![some p, none, some p, some p], ![none, some e, none, none],
        ![none, some e, none, none]] : Fin 4 → Fin 4 → Option R) i j) (M (r i, c j)) := by
  fin_cases i <;> fin_cases j <;>
    simp [mulAt, Prog.store_def, Prog.exec, Function.update_apply, hr.eq_iff, hc.eq_iff, mulOpt]

/-- element of the block a row of the extended matrix belongs to -/
def extRow (i j : Fin 2) : Nat := 2 * i.val + j.val

theorem dense2_exec [Add R] (ext : Nat → Nat → R) (r c : Fin 2 → U64) (M : U64 × U64 → R) (hr : Function.Injective r)
    (hc : Function.Injective c) (i j : Fin 2) :
    (do let v00 ← Prog.load (r 0, c 0)
        let v01 ← Prog.load (r 0, c 1)
        let v10 ← Prog.load (r 1, c 0)
        let v11 ← Prog.load (r 1, c 1)
        Prog.store (r 0, c 0) (ext 0 0 * v00 + ext 0 1 * v01 + ext 0 2 * v10 + ext 0 3 * v11)
        Prog.store (r 0, c 1) (ext 1 0 * v00 + ext 1 1 * v01 + ext 1 2 * v10 + ext 1 3 * v11)
        Prog.store (r 1, c 0) (ext 2 0 * v00 + ext 2 1 * v01 + ext 2 2 * v10 + ext 2 3 * v11)
        Prog.store (r 1, c 1) (ext 3 0 * v00 + ext 3 1 * v01 + ext 3 2 * v10 + ext 3 3 * v11)
          : Prog (U64 × U64) R Unit).exec M (r i, c j) =
      ext (extRow i j) 0 * M (r 0, c 0) + ext (extRow i j) 1 * M (r 0, c 1) + ext (extRow i j) 2 * M (r 1, c 0) +
        ext (extRow i j) 3 * M (r 1, c 1) := by
  fin_cases i <;> fin_cases j <;>
    simp [Prog.store_def, Prog.exec, Function.update_apply, hr.eq_iff, hc.eq_iff, extRow]

end

section
variable {F : Type} [_root_.Zero F] [One F] [Add F] [Sub F] [Mul F] [Neg F] {lib : FloatLib F} {val : F → ℝ} {u w η Ω ε δ : ℝ}
  {n q : Nat} {t c v : U64} {cs : List (Nat × Bool)}

local notation "⟪" x "⟫" => cval val x

theorem cval_conjC (A : Accurate lib val u w η Ω) (x : Cx F) : ⟪conjC x⟫ = conj ⟪x⟫ := by
  apply Complex.ext
  · rfl
  · exact A.neg _

theorem Near.conj (A : Accurate lib val u w η Ω) {x : Cx F} {X : ℂ} (h : Near val x X δ) : Near val (conjC x) (conj X) δ := by
  unfold Near
  rw [cval_conjC A, ← map_sub, Complex.norm_conj]
  exact h

theorem norm_conj_le {X : ℂ} (h : ‖X‖ ≤ 1) : ‖conj X‖ ≤ 1 := by rwa [Complex.norm_conj]

/-- multipliers that agree up to `δ` -/
def OptNear (val : F → ℝ) (δ : ℝ) : Option (Cx F) → Option ℂ → Prop
  | none, none => True
  | some x, some X => Near val x X δ ∧ ‖X‖ ≤ 1
  | _, _ => False

theorem mulOpt_err (A : Accurate lib val u w η Ω) (hu : u ≤ 1 / 64) (hη : η ≤ 1 / 64) (hd0 : 0 ≤ δ) (hd : δ ≤ 1 / 4) {o : Option (Cx F)} {o' : Option ℂ}
    (ho : OptNear val δ o o') {a : Cx F} (ha : ‖⟪a⟫‖ ≤ 2) : ‖⟪mulOpt o a⟫ - mulOpt o' ⟪a⟫‖ ≤ (δ + 7 * u) * ‖⟪a⟫‖ + 5 * η := by
  have hu0 := A.u_nonneg
  have hη0 := A.eta_nonneg
  match o, o', ho with
  | none, none, _ =>
    show ‖⟪a⟫ - ⟪a⟫‖ ≤ _
    rw [sub_self, norm_zero]
    positivity
  | some x, some X, ⟨h1, h2⟩ => exact mul_coef A hu hη h1 h2 hd (by linarith)

/-! ## Blocks -/

theorem pairCells_ok (hq : IsBit t q) : CellsOK n t (pairCells t) := ⟨fun _ hb => pairCells_iff hq hb, fun _ hb => pairCells_inj hq hb⟩

theorem one_cell {k : Nat} {C D x : ℝ} (hC : 0 ≤ C) (f : Fin k → Fin k → ℝ) (hf : ∀ i j, 0 ≤ f i j) (i j : Fin k) (h : x ≤ C * f i j + D) :
    x ≤ C * (∑ i, ∑ j, f i j) + D := by
  have h1 : f i j ≤ ∑ j, f i j := Finset.single_le_sum (f := fun j => f i j) (fun j _ => hf i j) (Finset.mem_univ j)
  have h2 : ∑ j, f i j ≤ ∑ i, ∑ j, f i j := Finset.single_le_sum (f := fun i => ∑ j, f i j) (fun i _ => Finset.sum_nonneg fun j _ => hf i j) (Finset.mem_univ i)
  have := mul_le_mul_of_nonneg_left (le_trans h1 h2) hC
  linarith

omit [_root_.Zero F] [One F] [Add F] [Sub F] [Mul F] [Neg F] in
theorem block2_close (h : MasksOK 1 n t 0 0) (hn : n < 32) (hq : IsBit t q) (hcs : ∀ j : U64, j &&& 0 = 0 ↔ CtrlOK cs j)
    {g : (Fin 2 → U64) → (Fin 2 → U64) → Prog (U64 × U64) (Cx F) Unit} {g' : (Fin 2 → U64) → (Fin 2 → U64) → Prog (U64 × U64) ℂ Unit}
    {U : Nat → Nat → ℂ} (hg : OnBlock2 g' U) (hwithin : ∀ r c, (g r c).Within (fun p => (∃ i, p.1 = r i) ∧ ∃ j, p.2 = c j))
    {C D : ℝ} (hC0 : 0 ≤ C) (hD0 : 0 ≤ D) (hε : 0 ≤ ε) (hη : 0 ≤ η) (hC : C ≤ 1400 * ε) (hD : D ≤ 5600 * η)
    (hexec : ∀ (r c : Fin 2 → U64) (M : U64 × U64 → Cx F), Function.Injective r → Function.Injective c →
      (∀ x y, ‖⟪M (r x, c y)⟫‖ ≤ 2) → ∀ i j,
      ‖⟪(g r c).exec M (r i, c j)⟫ - (g' r c).exec (fun p => ⟪M p⟫) (r i, c j)‖ ≤ C * (∑ x, ∑ y, ‖⟪M (r x, c y)⟫‖) + D) :
    MCloseTo n val ε η [pairFor (workItems (2 ^ n) t) (workItems (2 ^ n) t)
      (fun ir ic => g (pairCells t (insertZero ir t)) (pairCells t (insertZero ic t)))] (applyMat [q] U cs) := by
  rw [ctrl_nil hcs]
  refine block_close h hn (pairCells_ok hq) (blockMat2 U) (fun b hb ψ i => pairCells_op hq hb U ψ i) g hwithin hC0 hD0 hε hη
    (by push_cast; linarith) hD ?_
  intro r c M hr hc hb i j
  rw [← hg.exec r c (fun p => ⟪M p⟫) hr hc i j]
  exact hexec r c M hr hc hb i j

/-- the block of a target and one control -/
theorem ctrl1_facts (h : MasksOK 1 n t c v) (hq : IsBit t q) (hp : popcount c = 1) (hcs : ∀ j : U64, j &&& c = v ↔ CtrlOK cs j) :
    ∃ qc, IsBit c qc ∧ q ≠ qc ∧ v &&& c = (if v.getLsbD qc then c else 0) ∧ c ^^^ (v &&& c) = (if v.getLsbD qc then 0 else c) ∧
      (∀ j, CtrlOK cs j ↔ j.getLsbD qc = v.getLsbD qc) ∧ MasksOK 1 n (t ||| c) 0 0 := by
  obtain ⟨qc, hqc⟩ := isBit_of_popcount hp
  have hne : q ≠ qc := by
    rintro rfl
    have := h.disj q
    rw [hq.2, hqc.2] at this
    simp at this
  have hvb : ∀ i, v.getLsbD i = (decide (i = qc) && v.getLsbD qc) := by
    intro i
    by_cases e : i = qc
    · simp [e]
    · have := h.sub i
      rw [hqc.2] at this
      cases hvi : v.getLsbD i
      · simp [e]
      · simp [hvi, e] at this
  have hact : v &&& c = if v.getLsbD qc then c else 0 := by
    apply U64.ext; intro i _
    rw [BitVec.getLsbD_and, hqc.2, hvb i]
    cases hvq : v.getLsbD qc
    · simp
    · simp [hqc.2]
  have hina : c ^^^ (v &&& c) = if v.getLsbD qc then 0 else c := by
    rw [hact]
    cases hvq : v.getLsbD qc
    · apply U64.ext; intro i _; simp
    · apply U64.ext; intro i _; simp
  refine ⟨qc, hqc, hne, hact, hina, ?_, ⟨h.size, by simpa using h.fits, fun i => by simp, fun i => by simp⟩⟩
  intro j
  rw [← hcs]
  constructor
  · intro e
    have e' := congrArg (fun x => x.getLsbD qc) e
    simpa [BitVec.getLsbD_and, hqc.2] using e'
  · intro e
    apply U64.ext; intro i _
    rw [BitVec.getLsbD_and, hqc.2, hvb i]
    by_cases hi : i = qc
    · subst hi; simp [e]
    · simp [hi]

omit [_root_.Zero F] [One F] [Add F] [Sub F] [Mul F] [Neg F] in
theorem block4_close (h : MasksOK 1 n t c v) (hn : n < 32) (hq : IsBit t q) (hp : popcount c = 1) (hcs : ∀ j : U64, j &&& c = v ↔ CtrlOK cs j)
    {g : (Fin 4 → U64) → (Fin 4 → U64) → Prog (U64 × U64) (Cx F) Unit} {g' : (Fin 4 → U64) → (Fin 4 → U64) → Prog (U64 × U64) ℂ Unit}
    {U : Nat → Nat → ℂ} (hg : OnBlock4 g' U) (hwithin : ∀ r c, (g r c).Within (fun p => (∃ i, p.1 = r i) ∧ ∃ j, p.2 = c j))
    {C D : ℝ} (hC0 : 0 ≤ C) (hD0 : 0 ≤ D) (hε : 0 ≤ ε) (hη : 0 ≤ η) (hC : C ≤ 350 * ε) (hD : D ≤ 5600 * η)
    (hexec : ∀ (r c : Fin 4 → U64) (M : U64 × U64 → Cx F), Function.Injective r → Function.Injective c →
      (∀ x y, ‖⟪M (r x, c y)⟫‖ ≤ 2) → ∀ i j,
      ‖⟪(g r c).exec M (r i, c j)⟫ - (g' r c).exec (fun p => ⟪M p⟫) (r i, c j)‖ ≤ C * (∑ x, ∑ y, ‖⟪M (r x, c y)⟫‖) + D) :
    MCloseTo n val ε η [pairFor (workItems (2 ^ n) (t ||| c)) (workItems (2 ^ n) (t ||| c))
      (fun ir ic => g (quadCells t (v &&& c) (c ^^^ (v &&& c)) (insertZero ir (c ||| t)))
        (quadCells t (v &&& c) (c ^^^ (v &&& c)) (insertZero ic (c ||| t))))] (applyMat [q] U cs) := by
  obtain ⟨qc, hqc, hne, hact, hina, hcs', h'⟩ := ctrl1_facts h hq hp hcs
  rw [hina, hact, BitVec.or_comm c t]
  refine block_close h' hn (cell := quadCells t _ _) ⟨fun b hb => quadCells_iff hq hqc hne hb, fun b hb => quadCells_inj hq hqc hne hb⟩
    (ctrlMat4 U) (fun b hb ψ i => quadCells_op hq hqc hne hb hcs' U ψ i) g hwithin hC0 hD0 hε hη (by push_cast; linarith) hD ?_
  intro r c M hr hc hb i j
  rw [← hg.exec r c (fun p => ⟪M p⟫) hr hc i j]
  exact hexec r c M hr hc hb i j

omit [_root_.Zero F] [One F] [Add F] [Sub F] [Mul F] [Neg F] in
theorem two_pass_close1 {tm : U64} (hn : n < 32) {ts : List Nat} {U : Nat → Nat → ℂ}
    {bodyL bodyR : U64 → Prog U64 (Cx F) Unit} {bodyL' bodyR' : U64 → Prog U64 ℂ Unit} {L R : U64 → U64 → Prog (U64 × U64) (Cx F) Unit}
    (hε : 0 ≤ ε) (hη : 0 ≤ η) (hsmall : 512 * (2 * ε + η * 2 ^ n) ≤ 1)
    (rL : ∀ m, ∃ m', Runs (InState (1 * 2 ^ n)) (parallelFor (workItems (1 * 2 ^ n) tm) bodyL) m m')
    (rR : ∀ m, ∃ m', Runs (InState (1 * 2 ^ n)) (parallelFor (workItems (1 * 2 ^ n) tm) bodyR) m m')
    (cL : CloseTo (1 * 2 ^ n) val ε η (.par _ (parallelFor (workItems (1 * 2 ^ n) tm) bodyL)) (.par _ (parallelFor (workItems (1 * 2 ^ n) tm) bodyL')))
    (cR : CloseTo (1 * 2 ^ n) val ε η (.par _ (parallelFor (workItems (1 * 2 ^ n) tm) bodyR)) (.par _ (parallelFor (workItems (1 * 2 ^ n) tm) bodyR')))
    (h1 : ∀ m, Runs (InState (1 * 2 ^ n)) (parallelFor (workItems (1 * 2 ^ n) tm) bodyL') m (onState (1 * 2 ^ n) (applyMat ts U cs) m))
    (h2 : ∀ m, Runs (InState (1 * 2 ^ n)) (parallelFor (workItems (1 * 2 ^ n) tm) bodyR') m
      (onState (1 * 2 ^ n) (applyMat ts (fun r s => conj (U r s)) cs) m))
    (hcon : ∀ ψ, normSq (2 ^ n) (applyMat ts U cs ψ) ≤ normSq (2 ^ n) ψ)
    (hL : ∀ it col, L it col = (bodyL it).mapAddr (fun r => (r, col)))
    (hR : ∀ row it, R row it = (bodyR it).mapAddr (fun c => (row, c))) :
    MCloseTo n val ε η [pairFor (workItems (2 ^ n) tm) (2 ^ n) L, pairFor (2 ^ n) (workItems (2 ^ n) tm) R] (applyMat ts U cs) := by
  rw [one_mul_pow] at rL rR cL cR h1 h2
  exact two_pass_close hn (workItems_le _ _) hL hR rL rR hε hη hsmall cL cR h1 h2 hcon

/-! ## The kernels -/

/-- what is assumed about the arithmetic and the size of the matrix -/
structure DMRange (lib : FloatLib F) (val : F → ℝ) (u w η Ω ε : ℝ) (n : Nat) : Prop where
  acc : Accurate lib val u w η Ω
  le : u + η + w ≤ ε
  small : 8192 * (2 * ε + η * 2 ^ n) ≤ 1
  qubits : n < 32

theorem DMRange.facts (A : DMRange lib val u w η Ω ε n) : 0 ≤ u ∧ 0 ≤ η ∧ 0 ≤ ε ∧ u + η ≤ ε ∧ ε ≤ 1 / 16384 ∧ u ≤ 1 / 64 ∧ η ≤ 1 / 64 ∧
    512 * (2 * ε + η * 2 ^ n) ≤ 1 := by
  have h1 := A.acc.u_nonneg
  have h2 := A.acc.eta_nonneg
  have h3 := A.acc.w_nonneg
  have h4 := A.le
  have h5 := A.small
  have h6 : 0 ≤ η * 2 ^ n := by positivity
  refine ⟨h1, h2, by linarith, by linarith, by linarith, by linarith, by linarith, by linarith⟩

theorem close_dmDense1 (A : DMRange lib val u w η Ω ε n) (h : MasksOK 1 n t c v) (hq : IsBit t q) (hcs : ∀ j : U64, j &&& c = v ↔ CtrlOK cs j)
    {M : M22 (Cx F)} {N : M22 ℂ}
    (hn : Near val M.m00 N.m00 (80 * ε) ∧ Near val M.m01 N.m01 (80 * ε) ∧ Near val M.m10 N.m10 (80 * ε) ∧ Near val M.m11 N.m11 (80 * ε))
    (hl : ‖N.m00‖ ≤ 1 ∧ ‖N.m01‖ ≤ 1 ∧ ‖N.m10‖ ≤ 1 ∧ ‖N.m11‖ ≤ 1)
    (U : Nat → Nat → ℂ) (hU : U 0 0 = N.m00 ∧ U 0 1 = N.m01 ∧ U 1 0 = N.m10 ∧ U 1 1 = N.m11)
    (hcon : ∀ ψ, normSq (2 ^ n) (applyMat [q] U cs ψ) ≤ normSq (2 ^ n) ψ) :
    MCloseTo n val ε η (dmDense1F t c v M (2 ^ n)) (applyMat [q] U cs) := by
  obtain ⟨hu0, hη0, hε0, he, h4, hu, hη, hs⟩ := A.facts
  have Acc := A.acc
  unfold dmDense1F
  split
  · next hc =>
    subst hc
    obtain rfl := v_zero h
    simp only [or_zero']
    refine block2_close h A.qubits hq hcs (dense2_block N U hU)
      (g := fun r c => do
        let v00 ← Prog.load (r 0, c 0)
        let v01 ← Prog.load (r 0, c 1)
        let v10 ← Prog.load (r 1, c 0)
        let v11 ← Prog.load (r 1, c 1)
        let ext (y x : Nat) : Cx F := M.at (y >>> 1) (x >>> 1) * conjC (M.at (y &&& 1) (x &&& 1))
        Prog.store (r 0, c 0) (ext 0 0 * v00 + ext 0 1 * v01 + ext 0 2 * v10 + ext 0 3 * v11)
        Prog.store (r 0, c 1) (ext 1 0 * v00 + ext 1 1 * v01 + ext 1 2 * v10 + ext 1 3 * v11)
        Prog.store (r 1, c 0) (ext 2 0 * v00 + ext 2 1 * v01 + ext 2 2 * v10 + ext 2 3 * v11)
        Prog.store (r 1, c 1) (ext 3 0 * v00 + ext 3 1 * v01 + ext 3 2 * v10 + ext 3 3 * v11)) ?_
      (C := 400 * ε) (D := 23 * η) (by positivity) (by positivity) hε0 hη0 (by linarith) (by linarith) ?_
    · intro r c
      simp [Prog.store_def, Prog.Within]
    · intro r c m hr hc hb i j
      dsimp only
      rw [dense2_exec (fun y x => M.at (y >>> 1) (x >>> 1) * conjC (M.at (y &&& 1) (x &&& 1))) r c m hr hc i j,
        dense2_exec (fun y x => N.at (y >>> 1) (x >>> 1) * conj (N.at (y &&& 1) (x &&& 1))) r c (fun p => ⟪m p⟫) hr hc i j]
      have nM : ∀ a b, Near val (M.at a b) (N.at a b) (80 * ε) := by
        intro a b
        unfold M22.at mat2
        split <;> split
        · exact hn.1
        · exact hn.2.1
        · exact hn.2.2.1
        · exact hn.2.2.2
      have lM : ∀ a b, ‖N.at a b‖ ≤ 1 := by
        intro a b
        unfold M22.at mat2
        split <;> split
        · exact hl.1
        · exact hl.2.1
        · exact hl.2.2.1
        · exact hl.2.2.2
      have ne : ∀ y x : Nat, Near val (M.at (y >>> 1) (x >>> 1) * conjC (M.at (y &&& 1) (x &&& 1)))
          (N.at (y >>> 1) (x >>> 1) * conj (N.at (y &&& 1) (x &&& 1))) (328 * ε) := fun y x =>
        (Near.mul Acc hu hη (nM _ _) (Near.conj Acc (nM _ _)) (lM _ _) (norm_conj_le (lM _ _)) (by linarith) (by linarith)).mono (by linarith)
      have le : ∀ y x : Nat, ‖N.at (y >>> 1) (x >>> 1) * conj (N.at (y &&& 1) (x &&& 1))‖ ≤ 1 := by
        intro y x
        rw [norm_mul]
        exact mul_le_one₀ (lM _ _) (norm_nonneg _) (norm_conj_le (lM _ _))
      have hb' : ∀ x y, ‖⟪m (r x, c y)⟫‖ ≤ 4 := fun x y => le_trans (hb x y) (by norm_num)
      have := row4_err Acc hu hη (ne (extRow i j) 0) (ne (extRow i j) 1) (ne (extRow i j) 2) (ne (extRow i j) 3)
        (le (extRow i j) 0) (le (extRow i j) 1) (le (extRow i j) 2) (le (extRow i j) 3) (by linarith) (hb' 0 0) (hb' 0 1) (hb' 1 0) (hb' 1 1)
      rw [Fin.sum_univ_two, Fin.sum_univ_two, Fin.sum_univ_two]
      rw [← add_assoc (‖⟪m (r 0, c 0)⟫‖ + ‖⟪m (r 0, c 1)⟫‖)]
      exact relax this (by positivity) (by linarith) le_rfl
  · refine two_pass_close1 A.qubits hε0 hη0 hs (fun m => ⟨_, dense1Scalar_any h hq M m⟩)
      (fun m => ⟨_, dense1Scalar_any h hq ⟨conjC M.m00, conjC M.m01, conjC M.m10, conjC M.m11⟩ m⟩)
      (close_dense1 Acc he (by linarith) (L := 0) (Or.inl rfl) h hq hn hl)
      (close_dense1 Acc he (by linarith) (L := 0) (Or.inl rfl) h hq (M := ⟨conjC M.m00, conjC M.m01, conjC M.m10, conjC M.m11⟩)
        (N := ⟨conj N.m00, conj N.m01, conj N.m10, conj N.m11⟩)
        ⟨hn.1.conj Acc, hn.2.1.conj Acc, hn.2.2.1.conj Acc, hn.2.2.2.conj Acc⟩
        ⟨norm_conj_le hl.1, norm_conj_le hl.2.1, norm_conj_le hl.2.2.1, norm_conj_le hl.2.2.2⟩)
      (fun m => dense1Scalar_spec h hq cs hcs N U hU m)
      (fun m => dense1Scalar_spec h hq cs hcs _ (fun r s => conj (U r s)) (by simp [hU]) m) hcon (fun _ _ => rfl) (fun _ _ => rfl)

/-- products of multipliers -/
theorem near_prod (A : DMRange lib val u w η Ω ε n) {x y : Cx F} {X Y : ℂ} (hx : Near val x X (80 * ε)) (hX : ‖X‖ ≤ 1) (hy : Near val y Y (80 * ε))
    (hY : ‖Y‖ ≤ 1) : OptNear val (328 * ε) (some (x * conjC y)) (some (X * conj Y)) := by
  obtain ⟨hu0, hη0, hε0, he, h4, hu, hη, hs⟩ := A.facts
  refine ⟨(Near.mul A.acc hu hη hx (hy.conj A.acc) hX (norm_conj_le hY) (by linarith) (by linarith)).mono (by linarith), ?_⟩
  rw [norm_mul]
  exact mul_le_one₀ hX (norm_nonneg _) (norm_conj_le hY)

theorem near_some (A : DMRange lib val u w η Ω ε n) {x : Cx F} {X : ℂ} (hx : Near val x X (80 * ε)) (hX : ‖X‖ ≤ 1) :
    OptNear val (328 * ε) (some x) (some X) := by
  obtain ⟨hu0, hη0, hε0, he, h4, hu, hη, hs⟩ := A.facts
  exact ⟨hx.mono (by linarith), hX⟩

theorem near_someConj (A : DMRange lib val u w η Ω ε n) {x : Cx F} {X : ℂ} (hx : Near val x X (80 * ε)) (hX : ‖X‖ ≤ 1) :
    OptNear val (328 * ε) (some (conjC x)) (some (conj X)) := near_some A (hx.conj A.acc) (norm_conj_le hX)

theorem cell_err (A : DMRange lib val u w η Ω ε n) {k : Nat} {o : Option (Cx F)} {o' : Option ℂ}
    (ho : OptNear val (328 * ε) o o') {r c : Fin k → U64} {M : U64 × U64 → Cx F} (hb : ∀ x y, ‖⟪M (r x, c y)⟫‖ ≤ 2) (i j : Fin k) :
    ‖⟪mulOpt o (M (r i, c j))⟫ - mulOpt o' ⟪M (r i, c j)⟫‖ ≤ 335 * ε * (∑ x, ∑ y, ‖⟪M (r x, c y)⟫‖) + 5 * η := by
  obtain ⟨hu0, hη0, hε0, he, h4, hu, hη, hs⟩ := A.facts
  refine one_cell (by positivity) (fun x y => ‖⟪M (r x, c y)⟫‖) (fun _ _ => norm_nonneg _) i j ?_
  have := mulOpt_err A.acc hu hη (by positivity) (by linarith) ho (hb i j)
  exact relax this (norm_nonneg _) (by linarith) le_rfl

theorem close_dmDiag (A : DMRange lib val u w η Ω ε n) (h : MasksOK 1 n t c v) (hq : IsBit t q) (hcs : ∀ j : U64, j &&& c = v ↔ CtrlOK cs j)
    {x y : Cx F} {X Y : ℂ} (hx : Near val x X (80 * ε)) (hX : ‖X‖ ≤ 1) (hy : Near val y Y (80 * ε)) (hY : ‖Y‖ ≤ 1)
    (U : Nat → Nat → ℂ) (hU : U 0 0 = X ∧ U 0 1 = 0 ∧ U 1 0 = 0 ∧ U 1 1 = Y)
    (hcon : ∀ ψ, normSq (2 ^ n) (applyMat [q] U cs ψ) ≤ normSq (2 ^ n) ψ) :
    MCloseTo n val ε η (dmDiagF t c v x y (2 ^ n)) (applyMat [q] U cs) := by
  obtain ⟨hu0, hη0, hε0, he, h4, hu, hη, hs⟩ := A.facts
  have Acc := A.acc
  unfold dmDiagF
  split
  · next hc =>
    subst hc
    obtain rfl := v_zero h
    simp only [or_zero']
    refine block2_close h A.qubits hq hcs (diag2_block X Y U hU)
      (g := fun r c => do
        mulAt (r 0, c 0) (x * conjC x)
        mulAt (r 0, c 1) (x * conjC y)
        mulAt (r 1, c 0) (y * conjC x)
        mulAt (r 1, c 1) (y * conjC y)) ?_
      (C := 335 * ε) (D := 5 * η) (by positivity) (by positivity) hε0 hη0 (by linarith) (by linarith) ?_
    · intro r c
      simp [mulAt, Prog.store_def, Prog.Within]
    · intro r c m hr hc hb i j
      rw [diag2_exec _ _ _ _ r c m hr hc i j, diag2_exec _ _ _ _ r c (fun p => ⟪m p⟫) hr hc i j]
      refine cell_err A ?_ hb i j
      fin_cases i <;> fin_cases j
      · exact near_prod A hx hX hx hX
      · exact near_prod A hx hX hy hY
      · exact near_prod A hy hY hx hX
      · exact near_prod A hy hY hy hY
  · split
    · next hp =>
      refine block4_close h A.qubits hq hp hcs (diag4_block X Y U hU)
        (g := fun r c => do
          mulAt (r 2, c 0) (conjC x)
          mulAt (r 2, c 1) (conjC y)
          mulAt (r 3, c 0) (conjC x)
          mulAt (r 3, c 1) (conjC y)
          mulAt (r 0, c 2) x
          mulAt (r 0, c 3) x
          mulAt (r 1, c 2) y
          mulAt (r 1, c 3) y
          mulAt (r 0, c 0) (x * conjC x)
          mulAt (r 0, c 1) (x * conjC y)
          mulAt (r 1, c 0) (y * conjC x)
          mulAt (r 1, c 1) (y * conjC y)) ?_
        (C := 335 * ε) (D := 5 * η) (by positivity) (by positivity) hε0 hη0 (by linarith) (by linarith) ?_
      · intro r c
        simp [mulAt, Prog.store_def, Prog.Within]
      · intro r c m hr hc hb i j
        rw [diag4_exec _ _ _ _ _ _ _ _ r c m hr hc i j, diag4_exec _ _ _ _ _ _ _ _ r c (fun p => ⟪m p⟫) hr hc i j]
        refine cell_err A ?_ hb i j
        have c0 := near_someConj A hx hX
        have c1 := near_someConj A hy hY
        have s0 := near_some A hx hX
        have s1 := near_some A hy hY
        fin_cases i <;> fin_cases j <;>
          first
            | exact c0
            | exact c1
            | exact s0
            | exact s1
            | exact near_prod A hx hX hx hX
            | exact near_prod A hx hX hy hY
            | exact near_prod A hy hY hx hX
            | exact near_prod A hy hY hy hY
            | trivial
    · rw [BitVec.or_comm c t]
      exact two_pass_close1 A.qubits hε0 hη0 hs (fun m => ⟨_, diagGate_any h hq x y m⟩) (fun m => ⟨_, diagGate_any h hq (conjC x) (conjC y) m⟩)
        (close_diag Acc he (by linarith) h hq hx hX hy hY)
        (close_diag Acc he (by linarith) h hq (hx.conj Acc) (norm_conj_le hX) (hy.conj Acc) (norm_conj_le hY))
        (fun m => diagGate_spec h hq cs hcs X Y U hU m)
        (fun m => diagGate_spec h hq cs hcs _ _ (fun r s => conj (U r s)) (by simp [hU]) m) hcon (fun _ _ => rfl) (fun _ _ => rfl)

theorem close_dmPhase (A : DMRange lib val u w η Ω ε n) (h : MasksOK 1 n t c v) (hq : IsBit t q) (hcs : ∀ j : U64, j &&& c = v ↔ CtrlOK cs j)
    {x : Cx F} {X : ℂ} (hx : Near val x X (80 * ε)) (hX : ‖X‖ ≤ 1) (hp1 : X * conj X = 1)
    (U : Nat → Nat → ℂ) (hU : U 0 0 = 1 ∧ U 0 1 = 0 ∧ U 1 0 = 0 ∧ U 1 1 = X)
    (hcon : ∀ ψ, normSq (2 ^ n) (applyMat [q] U cs ψ) ≤ normSq (2 ^ n) ψ) :
    MCloseTo n val ε η (dmPhaseF t c v x (2 ^ n)) (applyMat [q] U cs) := by
  obtain ⟨hu0, hη0, hε0, he, h4, hu, hη, hs⟩ := A.facts
  have Acc := A.acc
  have c0 := near_someConj A hx hX
  have s0 := near_some A hx hX
  unfold dmPhaseF
  dsimp only
  split
  · next hc =>
    subst hc
    obtain rfl := v_zero h
    simp only [or_zero']
    refine block2_close h A.qubits hq hcs (phase2_block X hp1 U hU)
      (g := fun r c => do
        mulAt (r 0, c 1) (conjC x)
        mulAt (r 1, c 0) x) ?_
      (C := 335 * ε) (D := 5 * η) (by positivity) (by positivity) hε0 hη0 (by linarith) (by linarith) ?_
    · intro r c
      simp [mulAt, Prog.store_def, Prog.Within]
    · intro r c m hr hc hb i j
      rw [phase2_exec _ _ r c m hr hc i j, phase2_exec _ _ r c (fun p => ⟪m p⟫) hr hc i j]
      refine cell_err A ?_ hb i j
      fin_cases i <;> fin_cases j
      · trivial
      · exact c0
      · exact s0
      · trivial
  · split
    · next hp =>
      refine block4_close h A.qubits hq hp hcs (phase4_block X hp1 U hU)
        (g := fun r c => do
          mulAt (r 1, c 2) x
          mulAt (r 1, c 3) x
          mulAt (r 1, c 0) x
          mulAt (r 2, c 1) (conjC x)
          mulAt (r 3, c 1) (conjC x)
          mulAt (r 0, c 1) (conjC x)) ?_
        (C := 335 * ε) (D := 5 * η) (by positivity) (by positivity) hε0 hη0 (by linarith) (by linarith) ?_
      · intro r c
        simp [mulAt, Prog.store_def, Prog.Within]
      · intro r c m hr hc hb i j
        rw [phase4_exec _ _ r c m hr hc i j, phase4_exec _ _ r c (fun p => ⟪m p⟫) hr hc i j]
        refine cell_err A ?_ hb i j
        fin_cases i <;> fin_cases j <;>
          first
            | exact c0
            | exact s0
            | trivial
    · exact two_pass_close1 A.qubits hε0 hη0 hs (fun m => ⟨_, phaseGate_any h hq x m⟩) (fun m => ⟨_, phaseGate_any h hq (conjC x) m⟩)
        (close_phase Acc he (by linarith) h hq hx hX)
        (close_phase Acc he (by linarith) h hq (hx.conj Acc) (norm_conj_le hX))
        (fun m => phaseGate_spec h hq cs hcs X U hU m)
        (fun m => phaseGate_spec h hq cs hcs _ (fun r s => conj (U r s)) (by simp [hU]) m) hcon (fun _ _ => rfl) (fun _ _ => rfl)

theorem close_dmX (A : DMRange lib val u w η Ω ε n) (h : MasksOK 1 n t c v) (hq : IsBit t q) (hcs : ∀ j : U64, j &&& c = v ↔ CtrlOK cs j)
    (U : Nat → Nat → ℂ) (hU : U 0 0 = 0 ∧ U 0 1 = 1 ∧ U 1 0 = 1 ∧ U 1 1 = 0)
    (hcon : ∀ ψ, normSq (2 ^ n) (applyMat [q] U cs ψ) ≤ normSq (2 ^ n) ψ) :
    MCloseTo n val ε η (dmXF t c v (2 ^ n) : List (MLaunch (Cx F))) (applyMat [q] U cs) := by
  obtain ⟨hu0, hη0, hε0, he, h4, hu, hη, hs⟩ := A.facts
  have Acc := A.acc
  unfold dmXF
  dsimp only
  split
  · next hc =>
    subst hc
    obtain rfl := v_zero h
    simp only [or_zero']
    refine block2_close h A.qubits hq hcs (x2_block U hU)
      (g := fun r c => do
        exchangeAt (r 0, c 0) (r 1, c 1)
        exchangeAt (r 0, c 1) (r 1, c 0)) ?_
      (C := 0) (D := 0) le_rfl le_rfl hε0 hη0 (by positivity) (by positivity) ?_
    · intro r c
      simp [exchangeAt, Prog.store_def, Prog.Within]
    · intro r c m hr hc hb i j
      fin_cases i <;> fin_cases j <;>
        simp [exchangeAt, Prog.store_def, Prog.exec, Function.update_apply, hr.eq_iff, hc.eq_iff]
  · split
    · next hp =>
      refine block4_close h A.qubits hq hp hcs (x4_block U hU)
        (g := fun r c => do
          exchangeAt (r 2, c 0) (r 2, c 1)
          exchangeAt (r 3, c 0) (r 3, c 1)
          exchangeAt (r 0, c 2) (r 1, c 2)
          exchangeAt (r 0, c 3) (r 1, c 3)
          exchangeAt (r 0, c 0) (r 1, c 1)
          exchangeAt (r 0, c 1) (r 1, c 0)) ?_
        (C := 0) (D := 0) le_rfl le_rfl hε0 hη0 (by positivity) (by positivity) ?_
      · intro r c
        simp [exchangeAt, Prog.store_def, Prog.Within]
      · intro r c m hr hc hb i j
        fin_cases i <;> fin_cases j <;>
          simp [exchangeAt, Prog.store_def, Prog.exec, Function.update_apply, hr.eq_iff, hc.eq_iff]
    · exact two_pass_close1 A.qubits hε0 hη0 hs (fun m => ⟨_, xGate_any h hq m⟩) (fun m => ⟨_, xGate_any h hq m⟩)
        (close_x Acc he h hq) (close_x Acc he h hq) (fun m => xGate_spec h hq cs hcs U hU m)
        (fun m => xGate_spec h hq cs hcs (fun r s => conj (U r s)) (by simp [hU]) m) hcon (fun _ _ => rfl) (fun _ _ => rfl)

/-- a pass of the controlled Y kernel, in any arithmetic -/
theorem yPass_any {R : Type} [Mul R] (h : MasksOK 1 n t c v) (hq : IsBit t q) (a b : R) (m : U64 → R) :
    Runs (InState (1 * 2 ^ n)) (parallelFor (workItems (1 * 2 ^ n) (t ||| c)) (fun it => do
        let row0 := insertZero it (c ||| t) ||| v
        let row1 := row0 ||| t
        let val0 ← Prog.load row0
        let val1 ← Prog.load row1
        Prog.store row0 (a * val1)
        Prog.store row1 (b * val0))) m (oneOut 1 n q t c v (fun _ y => a * y) (fun x _ => b * x) m) := by
  simp only [BitVec.or_comm c t]
  refine oneOut_runs h hq (fun basis0 => do
    let val0 ← Prog.load basis0
    let val1 ← Prog.load (basis0 ||| t)
    Prog.store basis0 (a * val1)
    Prog.store (basis0 ||| t) (b * val0)) _ _ m ?_ ?_ ?_
  · intro b hne
    simp [Prog.store_def, Prog.Within]
  · intro b hne
    simp [Prog.store_def, Prog.exec, update_ne _ hne]
  · intro b hne
    simp [Prog.store_def, Prog.exec]

theorem close_yPass (A : DMRange lib val u w η Ω ε n) (h : MasksOK 1 n t c v) (hq : IsBit t q) {x y : Cx F} {X Y : ℂ}
    (hx : Near val x X (80 * ε)) (hX : ‖X‖ ≤ 1) (hy : Near val y Y (80 * ε)) (hY : ‖Y‖ ≤ 1) :
    CloseTo (1 * 2 ^ n) val ε η (.par _ (parallelFor (workItems (1 * 2 ^ n) (t ||| c)) (fun it => do
        let row0 := insertZero it (c ||| t) ||| v
        let row1 := row0 ||| t
        let val0 ← Prog.load row0
        let val1 ← Prog.load row1
        Prog.store row0 (x * val1)
        Prog.store row1 (y * val0)))) (.par _ (parallelFor (workItems (1 * 2 ^ n) (t ||| c)) (fun it => do
        let row0 := insertZero it (c ||| t) ||| v
        let row1 := row0 ||| t
        let val0 ← Prog.load row0
        let val1 ← Prog.load row1
        Prog.store row0 (X * val1)
        Prog.store row1 (Y * val0)))) := by
  obtain ⟨hu0, hη0, hε0, he, h4, hu, hη, hs⟩ := A.facts
  refine closeTo_one hε0 hη0 h hq (fun m => yPass_any h hq x y m) (fun m => yPass_any h hq X Y m)
    (C := 90 * ε) (D := 25 * η) (by positivity) le_rfl (by positivity) le_rfl ?_ ?_
  · intro a b ha hb
    have := coef_mul A.acc hu hη hx hX (by linarith) (a := b) (by linarith)
    refine le_trans this ?_
    nlinarith [norm_nonneg ⟪a⟫, norm_nonneg ⟪b⟫]
  · intro a b ha hb
    have := coef_mul A.acc hu hη hy hY (by linarith) (a := a) (by linarith)
    refine le_trans this ?_
    nlinarith [norm_nonneg ⟪a⟫, norm_nonneg ⟪b⟫]

theorem near_I (A : DMRange lib val u w η Ω ε n) : Near val (⟨0, 1⟩ : Cx F) (⟨0, 1⟩ : ℂ) (80 * ε) ∧ Near val (⟨0, -1⟩ : Cx F) (⟨0, -1⟩ : ℂ) (80 * ε) ∧
    ‖(⟨0, 1⟩ : ℂ)‖ ≤ 1 ∧ ‖(⟨0, -1⟩ : ℂ)‖ ≤ 1 := by
  obtain ⟨hu0, hη0, hε0, he, h4, hu, hη, hs⟩ := A.facts
  exact ⟨(near_self (cval_i A.acc)).mono (by linarith),
    (near_self ((cval_ni A.acc).trans (by apply Complex.ext <;> simp))).mono (by linarith), by rw [norm_imag]; norm_num, by rw [norm_imag]; norm_num⟩

theorem close_dmY (A : DMRange lib val u w η Ω ε n) (h : MasksOK 1 n t c v) (hq : IsBit t q) (hcs : ∀ j : U64, j &&& c = v ↔ CtrlOK cs j)
    (U : Nat → Nat → ℂ) (hU : U 0 0 = 0 ∧ U 0 1 = ⟨0, -1⟩ ∧ U 1 0 = ⟨0, 1⟩ ∧ U 1 1 = 0)
    (hcon : ∀ ψ, normSq (2 ^ n) (applyMat [q] U cs ψ) ≤ normSq (2 ^ n) ψ) :
    MCloseTo n val ε η (dmYF t c v (2 ^ n) : List (MLaunch (Cx F))) (applyMat [q] U cs) := by
  obtain ⟨hu0, hη0, hε0, he, h4, hu, hη, hs⟩ := A.facts
  have Acc := A.acc
  obtain ⟨nI, nN, lI, lN⟩ := near_I A
  unfold dmYF
  dsimp only
  split
  · next hc =>
    subst hc
    obtain rfl := v_zero h
    simp only [or_zero']
    refine block2_close h A.qubits hq hcs (y2_block U hU)
      (g := fun r c => do
        let v00 ← Prog.load (r 0, c 0)
        let v01 ← Prog.load (r 0, c 1)
        let v10 ← Prog.load (r 1, c 0)
        let v11 ← Prog.load (r 1, c 1)
        Prog.store (r 0, c 0) v11
        Prog.store (r 0, c 1) (-v10)
        Prog.store (r 1, c 0) (-v01)
        Prog.store (r 1, c 1) v00) ?_
      (C := 0) (D := 0) le_rfl le_rfl hε0 hη0 (by positivity) (by positivity) ?_
    · intro r c
      simp [Prog.store_def, Prog.Within]
    · intro r c m hr hc hb i j
      fin_cases i <;> fin_cases j <;>
        simp [Prog.store_def, Prog.exec, Function.update_apply, hr.eq_iff, hc.eq_iff, cval_neg Acc]
  · exact two_pass_close1 A.qubits hε0 hη0 hs (fun m => ⟨_, yPass_any h hq _ _ m⟩) (fun m => ⟨_, yPass_any h hq _ _ m⟩)
      (close_yPass A h hq nN lN nI lI) (close_yPass A h hq nI lI nN lN)
      (fun m => yPass_spec h hq hcs _ _ U hU m)
      (fun m => yPass_spec h hq hcs ⟨0, 1⟩ ⟨0, -1⟩ (fun r s => conj (U r s)) (by
        simp only [hU]
        refine ⟨?_, ?_, ?_, ?_⟩ <;> apply Complex.ext <;> simp) m) hcon (fun _ _ => rfl) (fun _ _ => rfl)

end
end Verif.Proofs
