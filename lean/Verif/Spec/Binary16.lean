import Verif.Spec.Entropy
import Mathlib.Algebra.Order.Round
import Mathlib.Data.Int.Log

/-!
# Half precision

The arithmetic of IEEE binary16 (11 significant bits, smallest positive number `2⁻²⁴`, greatest number 65504), with infinities and NaN.
Signed zeros are not distinguished, ties are rounded away from zero, and library functions are correctly rounded.
-/

namespace Verif.Spec
open Verif Verif.Model

/-- a half-precision number; `inf true` is `-∞` -/
inductive Half where
  | nan
  | inf (neg : Bool)
  | fin (r : ℝ)

namespace Half

open Classical in
/-- the nearest number -/
noncomputable def near (r : ℝ) : Half :=
  let k : ℤ := max (Int.log 2 |r| - 10) (-24)
  let x : ℝ := round (r / (2 : ℝ) ^ k) * (2 : ℝ) ^ k
  if |x| ≥ 65536 then inf (decide (r < 0)) else fin x

instance : Zero Half := ⟨fin 0⟩
instance : One Half := ⟨fin 1⟩

noncomputable instance : Neg Half where
  neg
  | nan => nan
  | inf s => inf (!s)
  | fin r => fin (-r)

open Classical in
noncomputable instance : Add Half where
  add
  | nan, _ => nan
  | _, nan => nan
  | inf s, inf t => if s = t then inf s else nan
  | inf s, fin _ => inf s
  | fin _, inf t => inf t
  | fin a, fin b => near (a + b)

noncomputable instance : Sub Half := ⟨fun x y => x + -y⟩

open Classical in
noncomputable instance : Mul Half where
  mul
  | nan, _ => nan
  | _, nan => nan
  | inf s, inf t => inf (s != t)
  | inf s, fin b => if b = 0 then nan else inf (s != decide (b < 0))
  | fin a, inf t => if a = 0 then nan else inf (t != decide (a < 0))
  | fin a, fin b => near (a * b)

/-- a function of finite numbers -/
noncomputable def lift (f : ℝ → ℝ) : Half → Half
  | fin r => near (f r)
  | _ => nan

noncomputable def lib : FloatLib Half := ⟨near, lift (· / 2), lift Real.cos, lift Real.sin, lift Real.exp, lift Real.cosh, lift Real.sinh⟩

open Classical in
noncomputable def entropyLib : EntropyLib Half where
  gt
  | fin a, fin b => decide (a > b)
  | inf false, fin _ => true
  | inf false, inf true => true
  | fin _, inf true => true
  | _, _ => false
  log2
  | fin a => if a = 0 then inf true else if a < 0 then nan else near (Real.logb 2 a)
  | inf false => inf false
  | _ => nan

/-- not a number -/
def isNaN (x : Half) : Prop := x = nan
/-- zero -/
def isZero (x : Half) : Prop := x = fin 0

theorem near_zero : near 0 = fin 0 := by simp [near]

theorem near_one : near 1 = fin 1 := by
  unfold near
  have e : max (Int.log 2 |(1 : ℝ)| - 10) (-24) = -10 := by rw [abs_one, Int.log_one_right]; rfl
  simp only [e]
  have h : round ((1 : ℝ) / (2 : ℝ) ^ (-10 : ℤ)) = 1024 := by
    have : (1 : ℝ) / (2 : ℝ) ^ (-10 : ℤ) = ((1024 : ℤ) : ℝ) := by norm_num
    rw [this, round_intCast]
  rw [h]
  norm_num

/-- `1e-15` is far below the smallest half-precision number -/
theorem near_eps : near (1 / 10 ^ 15) = fin 0 := by
  unfold near
  have h1 : Int.log 2 |(1 / 10 ^ 15 : ℝ)| < -49 := by
    rw [abs_of_pos (by norm_num), ← Int.lt_zpow_iff_log_lt (by norm_num) (by norm_num)]
    norm_num
  have e : max (Int.log 2 |(1 / 10 ^ 15 : ℝ)| - 10) (-24) = -24 := by omega
  simp only [e]
  have h : round ((1 / 10 ^ 15 : ℝ) / (2 : ℝ) ^ (-24 : ℤ)) = 0 := by
    rw [round_eq_zero_iff]
    constructor <;> norm_num
  rw [h]
  norm_num

/-- the laws of the special values -/
theorem specialValues : SpecialValues entropyLib isNaN isZero where
  add_left x y h := by unfold isNaN at h ⊢; subst h; rfl
  add_right x y h := by unfold isNaN at h ⊢; subst h; cases x <;> rfl
  log2_zero x h := by
    unfold isZero at h; unfold isNaN; subst h
    have e : entropyLib.log2 (fin 0) = inf true := by simp [entropyLib]
    rw [e]
    show (if (-0 : ℝ) = 0 then nan else _) = nan
    simp

end Half

end Verif.Spec
