import Verif.Spec.Ensemble

/-! # Specification: averages over independent shots of a noisy simulation -/

namespace Verif.Spec
open Verif Verif.Model MeasureTheory ProbabilityTheory

/-- the numbers of the alternatives of an instruction with their probabilities, the weights divided by their sum -/
noncomputable def Instr.chances (i : Instr) : List (ℕ × ℝ) := i.weights.zipIdx.map fun wj => (wj.2, wj.1 / i.weights.sum)

/-- all paths through the lines with their probabilities -/
noncomputable def pathChances : List Line → List (List ℕ × ℝ)
  | [] => [([], 1)]
  | l :: ls => l.instr.chances.flatMap fun a => (pathChances ls).map fun p => (a.1 :: p.1, a.2 * p.2)

/-- the state at the end of a path; conditions play no role -/
noncomputable def pathState (n : Nat) (θ : String → Option ℝ) : List Line → List Nat → (BitVec 64 → ℂ) → (BitVec 64 → ℂ)
  | l :: ls, c :: cs, ψ =>
    match (l.instr.alternatives θ)[c]? with
    | some d => pathState n θ ls cs (onState (2 ^ n) (operatorOf d) ψ)
    | none => ψ
  | _, _, ψ => ψ

section
variable {α E : Type*} [AddCommGroup E] [Module ℝ E]

/-- the average of `g` over alternatives with probabilities -/
noncomputable def mean (A : List (α × ℝ)) (g : α → E) : E := (A.map fun a => a.2 • g a.1).sum

/-- the average of `f` over lists whose elements are chosen independently -/
noncomputable def meanAll : List (List (α × ℝ)) → (List α → E) → E
  | [], f => f []
  | A :: As, f => mean A fun a => meanAll As fun r => f (a :: r)

/-- the average of `f` over `shots` independent shots through the lines -/
noncomputable def shotsMean (ls : List Line) (shots : Nat) (f : List (List ℕ) → E) : E := meanAll (List.replicate shots (pathChances ls)) f

end

/-- independent random indices: the draws of the `k`-th block of `shots` draws have the distribution of line `k` -/
structure IndexDraws {Ω : Type*} [MeasurableSpace Ω] (μ : Measure Ω) (ls : List Line) (shots : Nat) (D : ℕ → Ω → ℕ) : Prop where
  meas : ∀ i, Measurable (D i)
  indep : iIndepFun D μ
  law : ∀ k (hk : k < ls.length) t, t < shots → ∀ a ∈ (ls[k]).instr.chances, μ.real {ω | D (k * shots + t) ω = a.1} = a.2

/-- the states of the single shots: every state of the result as often as it is counted -/
def shotStates (res : List ((BitVec 64 → ℂ) × Int)) : List (BitVec 64 → ℂ) := res.flatMap fun r => List.replicate r.2.toNat r.1

/-- the line without its condition -/
def Line.always (l : Line) : Line := ⟨l.instr, none⟩

end Verif.Spec
