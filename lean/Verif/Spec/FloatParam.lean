import Verif.Spec.Rounding
import Verif.Spec.Circuit

/-!
# Specification of parametric circuits in floating-point arithmetic
-/

namespace Verif.Spec
open Verif Verif.Model

/-- the coefficient by which the parameter is multiplied -/
def RotDesc.factor : RotDesc → ℝ
  | .axis _ _ k _ _ => k
  | .pauli _ k _ _ => k

/-- The conditions on a rotation with coefficient `k` and parameter `t` for the error bound `ε`: `k`, `t` and the angle `k t`
at most 32, the relative errors of the three roundings and of `cos` and `sin` at most `ε`, and for a Pauli rotation a real
coefficient of at most one. -/
structure RotBounded (u w η ε : ℝ) (r : RotDesc) (t : ℝ) : Prop where
  factor : |r.factor| ≤ 32
  param : |t| ≤ 32
  angle : |r.factor * t| ≤ 32
  err : 4 * (u + η) * ((1 + |r.factor|) * (1 + |t|)) + w ≤ ε
  coef : match r with
    | .axis _ _ _ _ _ => True
    | .pauli p _ _ _ => p.coef.im = 0 ∧ |p.coef.re| ≤ 1

/-- a line of a circuit: a gate, or a rotation with the key of its parameter -/
inductive FLine where
  | gate (d : GateDesc)
  | rot (r : RotDesc) (key : String)

/-- `d` is the gate that the line stands for when the parameters are `params` -/
def FLine.Is (params : String → Option ℝ) : FLine → GateDesc → Prop
  | .gate d, d' => d' = d
  | .rot r key, d' => ∃ t, params key = some t ∧ d' = r.at t

end Verif.Spec
