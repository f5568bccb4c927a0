import Verif.Proofs.FloatReduce

/-! # Propagation of rounding errors through a formula -/

namespace Verif.Proofs
open Verif Verif.Spec Verif.Model

/-- `x` approximates `X`, of magnitude at most `G`, after `k` roundings, with the absolute error `δ` caused by underflow -/
def Appr {F : Type} (val : F → ℝ) (u : ℝ) (k : Nat) (x : F) (X G δ : ℝ) : Prop :=
  |val x - X| ≤ ((1 + u) ^ k - 1) * G + δ ∧ |X| ≤ G ∧ 0 ≤ δ

section
variable {F : Type} {val : F → ℝ} {u : ℝ}

theorem Appr.mono {k k' : Nat} {x : F} {X G G' δ δ' : ℝ} (hu : 0 ≤ u) (h : Appr val u k x X G δ) (hk : k ≤ k') (hG : G ≤ G') (hδ : δ ≤ δ') :
    Appr val u k' x X G' δ' := by
  obtain ⟨h1, h2, h3⟩ := h
  refine ⟨?_, h2.trans hG, h3.trans hδ⟩
  have e1 : (1 + u) ^ k ≤ (1 + u) ^ k' := pow_le_pow_right₀ (by linarith) hk
  have e0 : 1 ≤ (1 + u) ^ k := one_le_pow₀ (by linarith)
  have hG0 : 0 ≤ G := (abs_nonneg _).trans h2
  have e2 : ((1 + u) ^ k - 1) * G ≤ ((1 + u) ^ k' - 1) * G' := mul_le_mul (by linarith) hG hG0 (by linarith)
  linarith

theorem Appr.abs_le {k : Nat} {x : F} {X G δ : ℝ} (h : Appr val u k x X G δ) : |val x| ≤ (1 + u) ^ k * G + δ := by
  obtain ⟨h1, h2, -⟩ := h
  have : |val x| ≤ |val x - X| + |X| := by
    have := abs_add_le (val x - X) X; rwa [sub_add_cancel] at this
  linarith

theorem Appr.exact (x : F) : Appr val u 0 x (val x) |val x| 0 := ⟨by simp, le_rfl, le_rfl⟩

end

section
variable {F : Type} [_root_.Zero F] [One F] [Add F] [Sub F] [Mul F] [Neg F] {lib : FloatLib F} {val : F → ℝ} {u w η Ω : ℝ}

theorem Appr.neg (A : Accurate lib val u w η Ω) {k : Nat} {x : F} {X G δ : ℝ} (h : Appr val u k x X G δ) : Appr val u k (-x) (-X) G δ := by
  obtain ⟨h1, h2, h3⟩ := h
  refine ⟨?_, by rwa [abs_neg], h3⟩
  rw [A.neg, ← neg_sub', abs_neg]
  exact h1

theorem Appr.cast (A : Accurate lib val u w η Ω) {r : ℝ} (hr : |r| ≤ 64) : Appr val u 1 (lib.cast r) r |r| η := by
  refine ⟨?_, le_rfl, A.eta_nonneg⟩
  have := A.cast r hr
  rw [pow_one]
  linarith

theorem Appr.mul (A : Accurate lib val u w η Ω) {k l : Nat} {x y : F} {X Y G H δ ε : ℝ} (hx : Appr val u k x X G δ) (hy : Appr val u l y Y H ε)
    (rx : |val x| ≤ 64) (ry : |val y| ≤ 64) :
    Appr val u (k + l + 1) (x * y) (X * Y) (G * H) ((1 + u) * ((1 + u) ^ k * G * ε + (1 + u) ^ l * H * δ + δ * ε) + η) := by
  have hm := A.mul x y rx ry
  have hax := hx.abs_le
  have hay := hy.abs_le
  obtain ⟨x1, x2, x3⟩ := hx
  obtain ⟨y1, y2, y3⟩ := hy
  have hu := A.u_nonneg
  have hG : 0 ≤ G := (abs_nonneg _).trans x2
  have hH : 0 ≤ H := (abs_nonneg _).trans y2
  have hp : 1 ≤ (1 + u) ^ k := one_le_pow₀ (by linarith)
  have hq : 1 ≤ (1 + u) ^ l := one_le_pow₀ (by linarith)
  have hη := A.eta_nonneg
  set p := (1 + u) ^ k
  set q := (1 + u) ^ l
  have e : (1 + u) ^ (k + l + 1) = p * q * (1 + u) := by rw [pow_succ, pow_add]
  refine ⟨?_, by rw [abs_mul]; exact mul_le_mul x2 y2 (abs_nonneg _) hG, by positivity⟩
  rw [e]
  have e1 : |val x * val y - X * Y| ≤ |val x| * |val y - Y| + |val x - X| * |Y| := by
    rw [← abs_mul, ← abs_mul, show val x * val y - X * Y = val x * (val y - Y) + (val x - X) * Y by ring]
    exact abs_add_le _ _
  have e2 : |val x| * |val y - Y| ≤ (p * G + δ) * ((q - 1) * H + ε) := mul_le_mul hax y1 (abs_nonneg _) (by positivity)
  have e3 : |val x - X| * |Y| ≤ ((p - 1) * G + δ) * H := by
    refine mul_le_mul x1 y2 (abs_nonneg _) ?_
    have : 0 ≤ (p - 1) * G := mul_nonneg (by linarith) hG
    linarith
  have e4 : |val x * val y| ≤ (p * G + δ) * (q * H + ε) := by rw [abs_mul]; exact mul_le_mul hax hay (abs_nonneg _) (by positivity)
  have e5 : |val (x * y) - X * Y| ≤ |val (x * y) - val x * val y| + |val x * val y - X * Y| := abs_sub_le _ _ _
  have e6 := mul_le_mul_of_nonneg_left e4 hu
  nlinarith [e1, e2, e3, e5, e6, hm]

theorem Appr.add (A : Accurate lib val u w η Ω) {k : Nat} {x y : F} {X Y G H δ ε : ℝ} (hx : Appr val u k x X G δ) (hy : Appr val u k y Y H ε)
    (rx : |val x| ≤ Ω) (ry : |val y| ≤ Ω) : Appr val u (k + 1) (x + y) (X + Y) (G + H) ((1 + u) * (δ + ε)) := by
  have hm := A.add x y rx ry
  obtain ⟨x1, x2, x3⟩ := hx
  obtain ⟨y1, y2, y3⟩ := hy
  have hu := A.u_nonneg
  refine ⟨?_, (abs_add_le _ _).trans (add_le_add x2 y2), by positivity⟩
  rw [pow_succ]
  set p := (1 + u) ^ k
  have e1 : |val x + val y - (X + Y)| ≤ (p - 1) * G + δ + ((p - 1) * H + ε) := by
    rw [show val x + val y - (X + Y) = (val x - X) + (val y - Y) by ring]
    exact (abs_add_le _ _).trans (add_le_add x1 y1)
  have e2 : |val x + val y| ≤ |val x + val y - (X + Y)| + (G + H) := by
    have h1 := abs_add_le (val x + val y - (X + Y)) (X + Y); rw [sub_add_cancel] at h1
    have h2 := abs_add_le X Y
    linarith
  have e3 : |val (x + y) - (X + Y)| ≤ |val (x + y) - (val x + val y)| + |val x + val y - (X + Y)| := abs_sub_le _ _ _
  have e4 := mul_le_mul_of_nonneg_left (e2.trans (add_le_add_left e1 _)) hu
  nlinarith

theorem Appr.sub (A : Accurate lib val u w η Ω) {k : Nat} {x y : F} {X Y G H δ ε : ℝ} (hx : Appr val u k x X G δ) (hy : Appr val u k y Y H ε)
    (rx : |val x| ≤ 64) (ry : |val y| ≤ 64) : Appr val u (k + 1) (x - y) (X - Y) (G + H) ((1 + u) * (δ + ε)) := by
  have hm := A.sub x y rx ry
  obtain ⟨x1, x2, x3⟩ := hx
  obtain ⟨y1, y2, y3⟩ := hy
  have hu := A.u_nonneg
  refine ⟨?_, (abs_sub _ _).trans (add_le_add x2 y2), by positivity⟩
  rw [pow_succ]
  set p := (1 + u) ^ k
  have e1 : |val x - val y - (X - Y)| ≤ (p - 1) * G + δ + ((p - 1) * H + ε) := by
    rw [show val x - val y - (X - Y) = (val x - X) - (val y - Y) by ring]
    exact (abs_sub _ _).trans (add_le_add x1 y1)
  have e2 : |val x - val y| ≤ |val x - val y - (X - Y)| + (G + H) := by
    have h1 := abs_add_le (val x - val y - (X - Y)) (X - Y); rw [sub_add_cancel] at h1
    have h2 := abs_sub X Y
    linarith
  have e3 : |val (x - y) - (X - Y)| ≤ |val (x - y) - (val x - val y)| + |val x - val y - (X - Y)| := abs_sub_le _ _ _
  have e4 := mul_le_mul_of_nonneg_left (e2.trans (add_le_add_left e1 _)) hu
  nlinarith

/-- A reduction of approximate contributions. -/
theorem reducesTo_appr (A : Accurate lib val u w η Ω) (Z : AddZero val Ω) {α : Type} {l : List α} {k : Nat} {f : α → F} {g G δ : α → ℝ}
    (h : ∀ a ∈ l, Appr val u k (f a) (g a) (G a) (δ a)) {r : F} (hr : ReducesTo (l.map f) r)
    (hΩ : (1 + u) ^ l.length * ((1 + u) ^ k * (l.map G).sum + (l.map δ).sum) ≤ Ω) :
    |val r - (l.map g).sum| ≤ ((1 + u) ^ (l.length - 1 + k) - 1) * (l.map G).sum + (1 + u) ^ (l.length - 1) * (l.map δ).sum := by
  have hu := A.u_nonneg
  have facts : absSum val (l.map f) ≤ (1 + u) ^ k * (l.map G).sum + (l.map δ).sum ∧
      |((l.map f).map val).sum - (l.map g).sum| ≤ ((1 + u) ^ k - 1) * (l.map G).sum + (l.map δ).sum := by
    clear hr hΩ
    induction l with
    | nil => simp [absSum]
    | cons a l ih =>
      obtain ⟨i1, i2⟩ := ih fun b hb => h b (List.mem_cons_of_mem _ hb)
      have ha := h a List.mem_cons_self
      have h1 := ha.abs_le
      obtain ⟨h2, -, -⟩ := ha
      simp only [List.map_cons, List.sum_cons, absSum] at i1 i2 ⊢
      constructor
      · linarith
      · have := abs_add_le (val (f a) - g a) ((List.map val (List.map f l)).sum - (List.map g l).sum)
        rw [show val (f a) + (List.map val (List.map f l)).sum - (g a + (List.map g l).sum) =
          (val (f a) - g a) + ((List.map val (List.map f l)).sum - (List.map g l).sum) by ring]
        linarith
  obtain ⟨f1, f2⟩ := facts
  have hq : 1 ≤ (1 + u) ^ (l.length - 1) := one_le_pow₀ (by linarith)
  have hN : 0 ≤ (1 + u) ^ l.length := by positivity
  have e := reducesTo_err A Z hr (by rw [List.length_map]; exact (mul_le_mul_of_nonneg_left f1 hN).trans hΩ)
  rw [List.length_map] at e
  have e1 : |val r - (l.map g).sum| ≤ |val r - ((l.map f).map val).sum| + |((l.map f).map val).sum - (l.map g).sum| := abs_sub_le _ _ _
  rw [pow_add]
  have e2 := mul_le_mul_of_nonneg_left f1 (sub_nonneg.2 hq)
  nlinarith

end

end Verif.Proofs
