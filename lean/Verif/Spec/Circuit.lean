import Verif.Spec.Desc
import Verif.Spec.Random
import Verif.Model.Circuit

/-! # Specification: what a circuit does

A circuit is a list of lines.  Only the types of the arguments (and of classical conditions) are taken from the model. -/

namespace Verif.Spec
open Verif Verif.Model

/-- arguments of `ParamRX`, `ParamRY`, `ParamRZ`, `ParamPauliRotation` -/
inductive RotDesc where
  | axis (a : RotAxis) (target : Nat) (pcoef : ℝ) (controls values : List Nat)
  | pauli (p : PauliOp) (pcoef : ℝ) (controls values : List Nat)

/-- the fixed gate with the angle `pcoef * θ` -/
def RotDesc.at (θ : ℝ) : RotDesc → GateDesc
  | .axis .X t k cs vs => .one (.RX (k * θ)) t cs vs
  | .axis .Y t k cs vs => .one (.RY (k * θ)) t cs vs
  | .axis .Z t k cs vs => .one (.RZ (k * θ)) t cs vs
  | .pauli p k cs vs => .pauliRot p (k * θ) cs vs

/-- an alternative of a parametric random choice -/
inductive LeafDesc where
  | fixed (d : GateDesc)
  | rot (r : RotDesc)

def LeafDesc.at (θ : ℝ) : LeafDesc → GateDesc
  | .fixed d => d
  | .rot r => r.at θ

/-- what the user puts into a circuit -/
inductive Instr where
  | gate (d : GateDesc)
  | choice (ps : List ℝ) (ds : List GateDesc)
  | measure (q cbit : Nat) (reset : Bool)
  | rot (r : RotDesc) (key : String)
  | pchoice (ps : List ℝ) (ls : List LeafDesc) (key : String)

/-- an instruction, possibly with a classical condition -/
structure Line where
  instr : Instr
  cond : Option Condition

/-- the condition of a line evaluates to `b` -/
def Line.CondIs (l : Line) (reg : List Bool) (b : Bool) : Prop :=
  match l.cond with
  | none => b = true
  | some f => f reg = .ok b

/-- the qubits an instruction mentions -/
def Instr.qubits : Instr → List Nat
  | .gate d => qubitsOf d
  | .choice _ ds => ds.flatMap qubitsOf
  | .measure q _ _ => [q]
  | .rot r _ => qubitsOf (r.at 0)
  | .pchoice _ ls _ => ls.flatMap fun l => qubitsOf (l.at 0)

/-- an instruction all of whose gates are `SmallMatrix` -/
def Instr.SmallMatrices : Instr → Prop
  | .gate d => SmallMatrix d
  | .choice _ ds => ∀ d ∈ ds, SmallMatrix d
  | .pchoice _ ls _ => ∀ l ∈ ls, SmallMatrix (l.at 0)
  | _ => True

/-- an instruction without random choice -/
def Instr.Definite : Instr → Prop
  | .choice _ _ => False
  | .pchoice _ _ _ => False
  | _ => True

/-- a line without sparse or large dense matrices, unless it is an unconditional gate -/
def Line.InPlace (l : Line) : Prop := l.instr.SmallMatrices ∨ (l.cond = none ∧ l.instr.Definite)

/-- the draw `u` falls into the `k`-th of the consecutive intervals with lengths `ps`; the last one is extended upwards -/
def Picks (ps : List ℝ) (u : ℝ) (k : Nat) : Prop :=
  k < ps.length ∧ (ps.take k).sum ≤ u ∧ (u < (ps.take (k + 1)).sum ∨ k + 1 = ps.length)

/-- quantum state, classical register, qubits that were measured and not reset -/
structure Situation where
  psi : BitVec 64 → ℂ
  reg : List Bool
  measured : List Nat

/-- the effect of one line on `n` qubits with parameters `θ`; the list are the random numbers it uses -/
inductive Line.Effect (n : Nat) (θ : String → Option ℝ) : Line → Situation → List ℝ → Situation → Prop
  | skip (l : Line) (s : Situation) : l.CondIs s.reg false → Line.Effect n θ l s [] s
  | gate (d : GateDesc) (c : Option Condition) (s : Situation) : Line.CondIs ⟨.gate d, c⟩ s.reg true →
      (∀ q ∈ s.measured, q ∉ qubitsOf d) →
      Line.Effect n θ ⟨.gate d, c⟩ s [] { s with psi := onState (2 ^ n) (operatorOf d) s.psi }
  | choice (ps : List ℝ) (ds : List GateDesc) (c : Option Condition) (s : Situation) (u : ℝ) (k : Nat) (hk : k < ds.length) :
      Line.CondIs ⟨.choice ps ds, c⟩ s.reg true → (∀ q ∈ s.measured, ∀ d ∈ ds, q ∉ qubitsOf d) → Picks ps u k →
      Line.Effect n θ ⟨.choice ps ds, c⟩ s [u] { s with psi := onState (2 ^ n) (operatorOf ds[k]) s.psi }
  | measure (q cbit : Nat) (reset : Bool) (c : Option Condition) (s : Situation) (u : ℝ) (b : Bool) :
      Line.CondIs ⟨.measure q cbit reset, c⟩ s.reg true → q ∉ s.measured → cbit < s.reg.length →
      bitProb n s.psi q false ≤ 1 → (b = false ↔ u < bitProb n s.psi q false) → bitProb n s.psi q b ≠ 0 →
      Line.Effect n θ ⟨.measure q cbit reset, c⟩ s [u]
        ⟨onState (2 ^ n) (afterMeasurement n q b reset) s.psi, s.reg.set cbit b, if reset then s.measured else q :: s.measured⟩
  | rot (r : RotDesc) (key : String) (t : ℝ) (c : Option Condition) (s : Situation) : Line.CondIs ⟨.rot r key, c⟩ s.reg true →
      (∀ q ∈ s.measured, q ∉ qubitsOf (r.at 0)) → θ key = some t →
      Line.Effect n θ ⟨.rot r key, c⟩ s [] { s with psi := onState (2 ^ n) (operatorOf (r.at t)) s.psi }
  | pchoice (ps : List ℝ) (ls : List LeafDesc) (key : String) (t : ℝ) (c : Option Condition) (s : Situation) (u : ℝ) (k : Nat)
      (hk : k < ls.length) : Line.CondIs ⟨.pchoice ps ls key, c⟩ s.reg true →
      (∀ q ∈ s.measured, ∀ l ∈ ls, q ∉ qubitsOf (l.at 0)) → θ key = some t → Picks ps u k →
      Line.Effect n θ ⟨.pchoice ps ls key, c⟩ s [u] { s with psi := onState (2 ^ n) (operatorOf (ls[k].at t)) s.psi }

/-- a run of a list of lines; one list of random numbers per line -/
inductive History (n : Nat) (θ : String → Option ℝ) : List Line → Situation → List (List ℝ) → Situation → Prop
  | nil (s : Situation) : History n θ [] s [] s
  | cons (l : Line) (ls : List Line) (s s1 s2 : Situation) (us : List ℝ) (uss : List (List ℝ)) :
      l.Effect n θ s us s1 → History n θ ls s1 uss s2 → History n θ (l :: ls) s (us :: uss) s2

end Verif.Spec
