import Verif.Model.Simd
import Verif.Model.Mask
import Verif.Spec.Gates

/-!
# One-qubit gates, global phase, Swap, ECR: dispatch, `get_matrix`, `get_inverse`

`Spec.Gate1` lists the gate classes; floating point numbers are real numbers, `Complex<Prec>(a,b)` is `⟨a, b⟩ : ℂ`.
-/

namespace Verif.Model
open Verif.Spec (Gate1)

/-- /repo/include/scaluq/constant.hpp:15 `INVERSE_SQRT2()` (the constant √2/2). -/
noncomputable def inverseSqrt2 : ℝ := Real.sqrt 2 / 2

/-- `internal::exp(Complex(0, x))` and `std::exp(StdComplex(0, x))`. -/
noncomputable def expI (x : ℝ) : ℂ := Complex.exp ⟨0, x⟩

/-- `internal::polar(r, x)` = `r*(cos x + i sin x)` (/repo/src/gate/update_ops.hpp:61). -/
noncomputable def polar (r x : ℝ) : ℂ := ⟨r * Real.cos x, r * Real.sin x⟩

/-- /repo/include/scaluq/constant.hpp:72-75. -/
noncomputable def hadamardMatrix : M22 ℂ :=
  ⟨⟨inverseSqrt2, 0⟩, ⟨inverseSqrt2, 0⟩, ⟨inverseSqrt2, 0⟩, -⟨inverseSqrt2, 0⟩⟩
/-- /repo/include/scaluq/constant.hpp:78-81. -/
noncomputable def sqrtXMatrix : M22 ℂ := ⟨⟨0.5, 0.5⟩, ⟨0.5, -0.5⟩, ⟨0.5, -0.5⟩, ⟨0.5, 0.5⟩⟩
/-- /repo/include/scaluq/constant.hpp:84-87. -/
noncomputable def sqrtYMatrix : M22 ℂ := ⟨⟨0.5, 0.5⟩, ⟨-0.5, -0.5⟩, ⟨0.5, 0.5⟩, ⟨0.5, 0.5⟩⟩
/-- /repo/include/scaluq/constant.hpp:90-93. -/
noncomputable def sqrtXdagMatrix : M22 ℂ := ⟨⟨0.5, -0.5⟩, ⟨0.5, 0.5⟩, ⟨0.5, 0.5⟩, ⟨0.5, -0.5⟩⟩
/-- /repo/include/scaluq/constant.hpp:96-99. -/
noncomputable def sqrtYdagMatrix : M22 ℂ := ⟨⟨0.5, -0.5⟩, ⟨0.5, -0.5⟩, ⟨-0.5, 0.5⟩, ⟨0.5, -0.5⟩⟩
/-- /repo/include/scaluq/constant.hpp:102-104. -/
def proj0Matrix : M22 ℂ := ⟨1, 0, 0, 0⟩
/-- /repo/include/scaluq/constant.hpp:107-109. -/
def proj1Matrix : M22 ℂ := ⟨0, 0, 0, 1⟩

/-- /repo/src/gate/update_ops_standard.cpp:5-13 `get_IBMQ_matrix`. -/
noncomputable def ibmqMatrix (theta phi lam : ℝ) : M22 ℂ :=
  let expVal1 := expI phi
  let expVal2 := expI lam
  let cosVal : ℂ := (Real.cos (theta / 2) : ℂ)
  let sinVal : ℂ := (Real.sin (theta / 2) : ℂ)
  ⟨cosVal, -expVal2 * sinVal, expVal1 * sinVal, expVal1 * expVal2 * cosVal⟩

/-- What each one-qubit gate launches: the inline functions of /repo/src/gate/update_ops.hpp:75-260 (line of each
in the comment) and /repo/src/gate/update_ops_standard.cpp:70-82 (rx), 121-131 (ry), 169-181 (rz), 216-230 (u2),
232-245 (u3). `L`, `n` select the SIMD variant as in `dense1`; `dim` is `flat_dim()`. -/
noncomputable def gate1Kernel (L n : Nat) (o : Operands) (dim : Nat) : Gate1 → Device ℂ
  | .X => .par _ (xGate o.t o.c o.v dim)
  | .Y => .par _ (yGate ⟨0, 1⟩ ⟨0, -1⟩ o.t o.c o.v dim)
  | .Z => .par _ (phaseGate o.t o.c o.v (⟨-1, 0⟩ : ℂ) dim)                               -- 87-94
  | .H => dense1 L n o.t o.c o.v hadamardMatrix dim                                      -- 96-103
  | .S => .par _ (phaseGate o.t o.c o.v (⟨0, 1⟩ : ℂ) dim)                                -- 105-112
  | .Sdag => .par _ (phaseGate o.t o.c o.v (⟨0, -1⟩ : ℂ) dim)                            -- 114-121
  | .T => .par _ (phaseGate o.t o.c o.v (⟨inverseSqrt2, inverseSqrt2⟩ : ℂ) dim)          -- 123-133
  | .Tdag => .par _ (phaseGate o.t o.c o.v (⟨inverseSqrt2, -inverseSqrt2⟩ : ℂ) dim)      -- 135-145
  | .SqrtX => dense1 L n o.t o.c o.v sqrtXMatrix dim                                     -- 147-154
  | .SqrtXdag => dense1 L n o.t o.c o.v sqrtXdagMatrix dim                               -- 156-166
  | .SqrtY => dense1 L n o.t o.c o.v sqrtYMatrix dim                                     -- 168-175
  | .SqrtYdag => dense1 L n o.t o.c o.v sqrtYdagMatrix dim                               -- 177-187
  | .P0 => dense1 L n o.t o.c o.v proj0Matrix dim                                        -- 189-196
  | .P1 => dense1 L n o.t o.c o.v proj1Matrix dim                                        -- 198-205
  | .RX angle =>
    let cosval := Real.cos (angle / 2)
    let sinval := Real.sin (angle / 2)
    dense1 L n o.t o.c o.v ⟨(cosval : ℂ), ⟨0, -sinval⟩, ⟨0, -sinval⟩, (cosval : ℂ)⟩ dim
  | .RY angle =>
    let cosval := Real.cos (angle / 2)
    let sinval := Real.sin (angle / 2)
    dense1 L n o.t o.c o.v ⟨(cosval : ℂ), ((-sinval : ℝ) : ℂ), (sinval : ℂ), (cosval : ℂ)⟩ dim
  | .RZ angle =>
    let cosval := Real.cos (angle / 2)
    let sinval := Real.sin (angle / 2)
    .par _ (diagGate o.t o.c o.v (⟨cosval, -sinval⟩ : ℂ) ⟨cosval, sinval⟩ dim)
  | .U1 lam => .par _ (phaseGate o.t o.c o.v (expI lam) dim)                             -- 249-260
  | .U2 phi lam => dense1 L n o.t o.c o.v (ibmqMatrix (Real.pi / 2) phi lam) dim
  | .U3 theta phi lam => dense1 L n o.t o.c o.v (ibmqMatrix theta phi lam) dim

/-- `XGateImpl::update_quantum_state` etc. (/repo/src/gate/gate_standard.cpp:123-131 and the same macro for every
one-qubit gate class): bounds check, then the kernel.  `n` is `state.n_qubits()`, `B` the batch size (1 for a
single state). -/
noncomputable def gate1Update (L B n : Nat) (k : Gate1) (o : Operands) : Res (Device ℂ) := do
  checkWithinBounds o n
  pure (gate1Kernel L n o (B * 2 ^ n) k)

/-- /repo/src/gate/gate_standard.cpp: `get_matrix` of every one-qubit gate class (line of each in the comment),
entries row by row. -/
noncomputable def gate1GetMatrix : Gate1 → M22 ℂ
  | .X => ⟨0, 1, 1, 0⟩                                                                   -- 111-115
  | .Y => ⟨0, ⟨0, -1⟩, ⟨0, 1⟩, 0⟩                                                        -- 165-169
  | .Z => ⟨1, 0, 0, -1⟩                                                                  -- 219-223
  | .H => ⟨1 / (Real.sqrt 2 : ℂ), 1 / (Real.sqrt 2 : ℂ), 1 / (Real.sqrt 2 : ℂ), -1 / (Real.sqrt 2 : ℂ)⟩  -- 273-278
  | .S => ⟨1, 0, 0, ⟨0, 1⟩⟩                                                              -- 328-332
  | .Sdag => ⟨1, 0, 0, ⟨0, -1⟩⟩                                                          -- 382-386
  | .T => ⟨1, 0, 0, (⟨1, 1⟩ : ℂ) / (Real.sqrt 2 : ℂ)⟩                                    -- 436-440
  | .Tdag => ⟨1, 0, 0, (⟨1, -1⟩ : ℂ) / (Real.sqrt 2 : ℂ)⟩                                -- 490-494
  | .SqrtX => ⟨⟨0.5, 0.5⟩, ⟨0.5, -0.5⟩, ⟨0.5, -0.5⟩, ⟨0.5, 0.5⟩⟩                         -- 544-548
  | .SqrtXdag => ⟨⟨0.5, -0.5⟩, ⟨0.5, 0.5⟩, ⟨0.5, 0.5⟩, ⟨0.5, -0.5⟩⟩                      -- 598-602
  | .SqrtY => ⟨⟨0.5, 0.5⟩, ⟨-0.5, -0.5⟩, ⟨0.5, 0.5⟩, ⟨0.5, 0.5⟩⟩                         -- 652-656
  | .SqrtYdag => ⟨⟨0.5, -0.5⟩, ⟨0.5, -0.5⟩, ⟨-0.5, 0.5⟩, ⟨0.5, -0.5⟩⟩                    -- 706-710
  | .P0 => ⟨1, 0, 0, 0⟩                                                                  -- 760-764
  | .P1 => ⟨0, 0, 0, 1⟩                                                                  -- 814-818
  | .RX angle =>                                                                         -- 868-874
    let half := angle / 2
    ⟨(Real.cos half : ℂ), ⟨0, -Real.sin half⟩, ⟨0, -Real.sin half⟩, (Real.cos half : ℂ)⟩
  | .RY angle =>                                                                         -- 926-931
    let half := angle / 2
    ⟨(Real.cos half : ℂ), ((-Real.sin half : ℝ) : ℂ), (Real.sin half : ℂ), (Real.cos half : ℂ)⟩
  | .RZ angle =>                                                                         -- 983-988
    let half := angle / 2
    ⟨expI (-half), 0, 0, expI half⟩
  | .U1 lam => ⟨1, 0, 0, expI lam⟩                                                       -- 1040-1044
  | .U2 phi lam =>                                                                       -- 1096-1105
    ⟨(Real.cos (Real.pi / 4) : ℂ), -expI lam * (Real.sin (Real.pi / 4) : ℂ),
      expI phi * (Real.sin (Real.pi / 4) : ℂ), expI phi * expI lam * (Real.cos (Real.pi / 4) : ℂ)⟩
  | .U3 theta phi lam =>                                                                 -- 1162-1173
    ⟨(Real.cos (theta / 2) : ℂ), -expI lam * (Real.sin (theta / 2) : ℂ),
      expI phi * (Real.sin (theta / 2) : ℂ), expI phi * expI lam * (Real.cos (theta / 2) : ℂ)⟩

/-- `get_inverse` of the one-qubit gate classes, /repo/include/scaluq/gate/gate_standard.hpp (X 123, Y 166, Z 209,
H 252 return themselves; S 312, Sdag 356, T 400, Tdag 444, SqrtX 488, SqrtXdag 533, SqrtY 577, SqrtYdag 622 are
swapped; P0 666, P1 709 throw; RX 752, RY 797, RZ 842, U1 896 negate the angle; U2 953-959; U3 1019-1025).  Operands are kept. -/
noncomputable def gate1Inverse : Gate1 → Res Gate1
  | .X => pure .X
  | .Y => pure .Y
  | .Z => pure .Z
  | .H => pure .H
  | .S => pure .Sdag
  | .Sdag => pure .S
  | .T => pure .Tdag
  | .Tdag => pure .T
  | .SqrtX => pure .SqrtXdag
  | .SqrtXdag => pure .SqrtX
  | .SqrtY => pure .SqrtYdag
  | .SqrtYdag => pure .SqrtY
  | .P0 => .error (.throw "P0::get_inverse: Projection gate doesn't have inverse gate")
  | .P1 => .error (.throw "P1::get_inverse: Projection gate doesn't have inverse gate")
  | .RX a => pure (.RX (-a))
  | .RY a => pure (.RY (-a))
  | .RZ a => pure (.RZ (-a))
  | .U1 lam => pure (.U1 (-lam))
  | .U2 phi lam => pure (.U2 (-lam - Real.pi) (-phi + Real.pi))
  | .U3 theta phi lam => pure (.U3 (-theta) (-lam) (-phi))

end Verif.Model
