import Verif.Core.Family

/-!
# Kernels on a matrix

Cells are pairs (row, column).  A launch of `Nr * Nc` work items decodes item `g` as `g / Nc` and `g % Nc`.
-/

namespace Verif
open Relation

/-- a cell of a `dim × dim` matrix -/
def InMat (dim : Nat) (p : U64 × U64) : Prop := InState dim p.1 ∧ InState dim p.2

/-- one kernel launch on a matrix -/
structure MLaunch (R : Type) where
  N : Nat
  pool : Pool (Fin N) (U64 × U64) R

/-- the launches run one after the other -/
def MRuns {R : Type} (dim : Nat) : List (MLaunch R) → (U64 × U64 → R) → (U64 × U64 → R) → Prop
  | [], M, M' => M' = M
  | l :: ls, M, M' => ∃ M₁, Runs (InMat dim) l.pool M M₁ ∧ MRuns dim ls M₁ M'

theorem MRuns.unique {R : Type} {dim : Nat} {ls : List (MLaunch R)} : ∀ {M M₁ M₂ : U64 × U64 → R},
    MRuns dim ls M M₁ → MRuns dim ls M M₂ → M₁ = M₂ := by
  induction ls with
  | nil => intro M M₁ M₂ h1 h2; rw [show M₁ = M from h1, show M₂ = M from h2]
  | cons l ls ih =>
    rintro M M₁ M₂ ⟨a, ha, h1⟩ ⟨b, hb, h2⟩
    obtain rfl := Runs.unique ha hb
    exact ih h1 h2

/-- `parallel_for(RangePolicy(0, Nr * Nc), g ↦ body(g / Nc, g % Nc))`; the product and the quotients are 64-bit. -/
def pairFor {R : Type} (Nr Nc : Nat) (body : U64 → U64 → Prog (U64 × U64) R Unit) : MLaunch R :=
  ⟨(Nr * Nc) % 2 ^ 64, parallelFor _ fun g => body (g / BitVec.ofNat 64 Nc) (g % BitVec.ofNat 64 Nc)⟩

section
variable {R : Type}

theorem ofNat_div (g N : Nat) (hg : g < 2 ^ 64) (hN : N < 2 ^ 64) :
    BitVec.ofNat 64 g / BitVec.ofNat 64 N = BitVec.ofNat 64 (g / N) := by
  apply BitVec.eq_of_toNat_eq
  rw [BitVec.toNat_udiv, BitVec.toNat_ofNat, BitVec.toNat_ofNat, BitVec.toNat_ofNat, Nat.mod_eq_of_lt hg,
    Nat.mod_eq_of_lt hN, Nat.mod_eq_of_lt (lt_of_le_of_lt (Nat.div_le_self _ _) hg)]

theorem ofNat_mod (g N : Nat) (hg : g < 2 ^ 64) (hN : N < 2 ^ 64) :
    BitVec.ofNat 64 g % BitVec.ofNat 64 N = BitVec.ofNat 64 (g % N) := by
  apply BitVec.eq_of_toNat_eq
  rw [BitVec.toNat_umod, BitVec.toNat_ofNat, BitVec.toNat_ofNat, BitVec.toNat_ofNat, Nat.mod_eq_of_lt hg,
    Nat.mod_eq_of_lt hN, Nat.mod_eq_of_lt (lt_of_le_of_lt (Nat.mod_le _ _) hg)]

theorem toNat_ofNat_lt {k : Nat} (h : k < 2 ^ 64) : (BitVec.ofNat 64 k).toNat = k := by
  rw [BitVec.toNat_ofNat, Nat.mod_eq_of_lt h]

/-- item `g` of the launch is the pair of items `(g / Nc, g % Nc)` -/
theorem pairFor_item {Nr Nc : Nat} (hN : Nr * Nc < 2 ^ 64) (hc : Nc < 2 ^ 64) (body : U64 → U64 → Prog (U64 × U64) R Unit)
    (g : Fin (pairFor Nr Nc body).N) :
    (pairFor Nr Nc body).pool g = body (BitVec.ofNat 64 (g.val / Nc)) (BitVec.ofNat 64 (g.val % Nc)) := by
  have hg : g.val < 2 ^ 64 := lt_trans g.isLt (Nat.mod_lt _ (by norm_num))
  show body _ _ = _
  rw [ofNat_div _ _ hg hc, ofNat_mod _ _ hg hc]

theorem pair_div {Nr Nc : Nat} (hN : Nr * Nc < 2 ^ 64) (g : Fin ((Nr * Nc) % 2 ^ 64)) : g.val / Nc < Nr ∧ g.val % Nc < Nc := by
  have hg : g.val < Nr * Nc := lt_of_lt_of_eq g.isLt (Nat.mod_eq_of_lt hN)
  have hc : 0 < Nc := by
    rcases Nat.eq_zero_or_pos Nc with rfl | h
    · simp at hg
    · exact h
  exact ⟨(Nat.div_lt_iff_lt_mul hc).2 hg, Nat.mod_lt _ hc⟩

theorem pair_surj {Nr Nc a b : Nat} (hN : Nr * Nc < 2 ^ 64) (ha : a < Nr) (hb : b < Nc) :
    ∃ g : Fin ((Nr * Nc) % 2 ^ 64), g.val / Nc = a ∧ g.val % Nc = b := by
  have hlt : a * Nc + b < Nr * Nc := by
    have : (a + 1) * Nc ≤ Nr * Nc := Nat.mul_le_mul_right _ ha
    rw [Nat.add_mul, Nat.one_mul] at this
    omega
  refine ⟨⟨a * Nc + b, by rwa [Nat.mod_eq_of_lt hN]⟩, ?_, ?_⟩
  · show (a * Nc + b) / Nc = a
    rw [Nat.add_comm, Nat.add_mul_div_right _ _ (by omega), Nat.div_eq_of_lt hb, Nat.zero_add]
  · show (a * Nc + b) % Nc = b
    rw [Nat.add_comm, Nat.add_mul_mod_self_right, Nat.mod_eq_of_lt hb]

theorem div_mod_inj {a b N : Nat} (h1 : a / N = b / N) (h2 : a % N = b % N) : a = b := by
  rw [← Nat.div_add_mod a N, ← Nat.div_add_mod b N, h1, h2]

/-- a pass over the rows of every column: item `(it, col)` runs item `it` of a state-vector kernel on column `col` -/
theorem rows_run {N dim : Nat} (hN : N * dim < 2 ^ 64) (hd : dim < 2 ^ 64) {body : U64 → Prog U64 R Unit}
    {body' : U64 → U64 → Prog (U64 × U64) R Unit} (hb : ∀ it col, body' it col = (body it).mapAddr (fun r => (r, col)))
    (F : (U64 → R) → U64 → R) (h : ∀ m, Runs (InState dim) (parallelFor N body) m (F m)) (M : U64 × U64 → R) :
    Runs (InMat dim) (pairFor N dim body').pool M (fun p => if InState dim p.2 then F (fun r => M (r, p.2)) p.1 else M p) := by
  classical
  have hk : ∀ k : Fin dim, (BitVec.ofNat 64 k.val).toNat = k.val := fun k => toNat_ofNat_lt (lt_trans k.isLt hd)
  have e : (pairFor N dim body').pool = familyPool (κ := Fin dim) (ι₀ := Fin N) (fun g => ⟨g.val % dim, (pair_div hN g).2⟩)
      (fun g => ⟨g.val / dim, (pair_div hN g).1⟩) (fun k a => (a, BitVec.ofNat 64 k.val)) (fun _ => parallelFor N body) := by
    funext g
    rw [pairFor_item hN hd, hb]
    rfl
  rw [e]
  apply family_runs (ok₀ := InState dim)
  · intro i j h1 h2
    simp only [Fin.mk.injEq] at h1 h2
    exact Fin.ext (div_mod_inj h2 h1)
  · intro k x
    obtain ⟨g, h1, h2⟩ := pair_surj hN x.isLt k.isLt
    exact ⟨g, Fin.ext h2, Fin.ext h1⟩
  · intro k k' a a' hkk
    simp only [Prod.mk.injEq] at hkk
    refine ⟨Fin.ext ?_, hkk.1⟩
    rw [← hk k, ← hk k', hkk.2]
  · intro k a
    simp only [InMat, InState, hk k]
    exact ⟨fun h => h.1, fun h => ⟨h, k.isLt⟩⟩
  · intro k
    have : InState dim (BitVec.ofNat 64 k.val) := by rw [InState, hk]; exact k.isLt
    simp only [this, if_true]
    exact h _
  · intro b hb'
    by_cases hin : InState dim b.2
    · exact (hb' ⟨b.2.toNat, hin⟩ b.1 (Prod.ext rfl (by simp))).elim
    · rw [if_neg hin]

/-- a pass over the columns of every row -/
theorem cols_run {N dim : Nat} (hN : dim * N < 2 ^ 64) (hN' : N < 2 ^ 64) (hd : dim < 2 ^ 64) {body : U64 → Prog U64 R Unit}
    {body' : U64 → U64 → Prog (U64 × U64) R Unit} (hb : ∀ row it, body' row it = (body it).mapAddr (fun c => (row, c)))
    (F : (U64 → R) → U64 → R) (h : ∀ m, Runs (InState dim) (parallelFor N body) m (F m)) (M : U64 × U64 → R) :
    Runs (InMat dim) (pairFor dim N body').pool M (fun p => if InState dim p.1 then F (fun c => M (p.1, c)) p.2 else M p) := by
  classical
  have hk : ∀ k : Fin dim, (BitVec.ofNat 64 k.val).toNat = k.val := fun k => toNat_ofNat_lt (lt_trans k.isLt hd)
  have e : (pairFor dim N body').pool = familyPool (κ := Fin dim) (ι₀ := Fin N) (fun g => ⟨g.val / N, (pair_div hN g).1⟩)
      (fun g => ⟨g.val % N, (pair_div hN g).2⟩) (fun k a => (BitVec.ofNat 64 k.val, a)) (fun _ => parallelFor N body) := by
    funext g
    rw [pairFor_item hN hN', hb]
    rfl
  rw [e]
  apply family_runs (ok₀ := InState dim)
  · intro i j h1 h2
    simp only [Fin.mk.injEq] at h1 h2
    exact Fin.ext (div_mod_inj h1 h2)
  · intro k x
    obtain ⟨g, h1, h2⟩ := pair_surj hN k.isLt x.isLt
    exact ⟨g, Fin.ext h1, Fin.ext h2⟩
  · intro k k' a a' hkk
    simp only [Prod.mk.injEq] at hkk
    refine ⟨Fin.ext ?_, hkk.2⟩
    rw [← hk k, ← hk k', hkk.1]
  · intro k a
    simp only [InMat, InState, hk k]
    exact ⟨fun h => h.2, fun h => ⟨k.isLt, h⟩⟩
  · intro k
    have : InState dim (BitVec.ofNat 64 k.val) := by rw [InState, hk]; exact k.isLt
    simp only [this, if_true]
    exact h _
  · intro b hb'
    by_cases hin : InState dim b.1
    · exact (hb' ⟨b.1.toNat, hin⟩ b.2 (Prod.ext (by simp) rfl)).elim
    · rw [if_neg hin]

/-- **Pair kernel theorem**: work item `(ir, ic)` works on the rows and columns whose bits outside `t` are those of its
two bases. -/
theorem pairKernel_runs {n : Nat} {t : U64} (h : MasksOK 1 n t 0 0) (hn : n < 32) (g : U64 → U64 → Prog (U64 × U64) R Unit)
    (M M' : U64 × U64 → R)
    (hwithin : ∀ br bc, IsBase (2 ^ n) t 0 0 br → IsBase (2 ^ n) t 0 0 bc →
      (g br bc).Within (fun p => InBlock t br p.1 ∧ InBlock t bc p.2))
    (hin : ∀ br bc p, IsBase (2 ^ n) t 0 0 br → IsBase (2 ^ n) t 0 0 bc → InBlock t br p.1 → InBlock t bc p.2 →
      M' p = (g br bc).exec M p)
    (hout : ∀ p, ¬ InMat (2 ^ n) p → M' p = M p) :
    Runs (InMat (2 ^ n)) (pairFor (workItems (2 ^ n) t) (workItems (2 ^ n) t)
      (fun ir ic => g (insertZero ir t) (insertZero ic t))).pool M M' := by
  have ho : ∀ t : U64, t ||| 0 = t := fun _ => BitVec.or_zero
  have h1 : 1 * 2 ^ n = 2 ^ n := Nat.one_mul _
  have hW : workItems (2 ^ n) t ≤ 2 ^ n := by
    unfold workItems; rw [Nat.shiftRight_eq_div_pow]; exact Nat.div_le_self _ _
  have hd : (2 : Nat) ^ n < 2 ^ 32 := Nat.pow_lt_pow_right (by norm_num) hn
  have hN : workItems (2 ^ n) t * workItems (2 ^ n) t < 2 ^ 64 :=
    lt_of_le_of_lt (Nat.mul_le_mul hW hW) (by
      calc 2 ^ n * 2 ^ n < 2 ^ 32 * 2 ^ 32 := Nat.mul_lt_mul'' hd hd
        _ = 2 ^ 64 := by norm_num)
  have hW' : workItems (2 ^ n) t < 2 ^ 64 := lt_of_le_of_lt hW (by omega)
  have base : ∀ {k}, k < workItems (2 ^ n) t → IsBase (2 ^ n) t 0 0 (insertZero (BitVec.ofNat 64 k) t) := by
    intro k hk
    have := base_isBase h (it := k) (by rwa [ho, h1])
    rwa [ho, h1, ho] at this
  have inj : ∀ {k k'} {j : U64}, k < workItems (2 ^ n) t → k' < workItems (2 ^ n) t →
      InBlock t (insertZero (BitVec.ofNat 64 k) t) j → InBlock t (insertZero (BitVec.ofNat 64 k') t) j → k = k' := by
    intro k k' j hk hk' h2 h3
    refine block_inj h (it := k) (it' := k') (j := j) (by rwa [ho, h1]) (by rwa [ho, h1]) ?_ ?_
    · rwa [ho, ho]
    · rwa [ho, ho]
  have surj : ∀ {j : U64}, InState (2 ^ n) j → ∃ k, k < workItems (2 ^ n) t ∧ InBlock t (insertZero (BitVec.ofNat 64 k) t) j := by
    intro j hj
    obtain ⟨k, hk, hb⟩ := block_surj h (j := j) (by rwa [h1]) BitVec.and_zero
    rw [ho, h1] at hk
    rw [ho, ho] at hb
    exact ⟨k, hk, hb⟩
  have mem : ∀ {b j : U64}, IsBase (2 ^ n) t 0 0 b → InBlock t b j → InState (2 ^ n) j := by
    intro b j hb hj
    have := inBlock_mem h (by rwa [h1]) hj
    rw [h1] at this
    exact this.1
  apply runs_of_disjoint _ _ _ _ (fun g p =>
    InBlock t (insertZero (BitVec.ofNat 64 (g.val / workItems (2 ^ n) t)) t) p.1 ∧
    InBlock t (insertZero (BitVec.ofNat 64 (g.val % workItems (2 ^ n) t)) t) p.2)
  · intro i i' a ⟨a1, a2⟩ ⟨b1, b2⟩
    exact Fin.ext (div_mod_inj (inj (pair_div hN i).1 (pair_div hN i').1 a1 b1) (inj (pair_div hN i).2 (pair_div hN i').2 a2 b2))
  · intro i a ⟨a1, a2⟩
    exact ⟨mem (base (pair_div hN i).1) a1, mem (base (pair_div hN i).2) a2⟩
  · intro i
    rw [pairFor_item hN hW']
    exact hwithin _ _ (base (pair_div hN i).1) (base (pair_div hN i).2)
  · intro i a ⟨a1, a2⟩
    rw [pairFor_item hN hW']
    exact hin _ _ _ (base (pair_div hN i).1) (base (pair_div hN i).2) a1 a2
  · intro a ha
    apply hout
    rintro ⟨h2, h3⟩
    obtain ⟨k, hk, hb⟩ := surj h2
    obtain ⟨k', hk', hb'⟩ := surj h3
    obtain ⟨gg, e1, e2⟩ := pair_surj hN hk hk'
    exact ha gg ⟨by rwa [e1], by rwa [e2]⟩

end
end Verif
