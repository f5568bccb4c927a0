import Verif.Spec.Circuit

/-! # Specification: the expectation value as a function of the parameters -/

namespace Verif.Spec
open Verif Verif.Model

/-- the parameters with `key` set to `t` -/
def tune (θ : String → Option ℝ) (key : String) (t : ℝ) : String → Option ℝ := fun k => if k = key then some t else θ k

/-- the factor between the parameter and the rotation angle -/
noncomputable def rotScale : RotDesc → ℝ
  | .axis _ _ k _ _ => k
  | .pauli p k _ _ => k * p.coef.re

/-- no controls, real coefficient -/
def FreeRot : RotDesc → Prop
  | .axis _ _ _ cs _ => cs = []
  | .pauli p _ cs _ => cs = [] ∧ p.coef.im = 0

end Verif.Spec
