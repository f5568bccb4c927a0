import Verif.Core.Kernel

/-!
# Sequences of parallel kernels

A gate launches a few kernels one after another on the same execution space; Kokkos runs kernels launched on one
execution space instance in order, so a launch sequence is a sequential composition of `Runs`.
-/

namespace Verif

/-- What a gate launches on a state of complex numbers `R`.
`outOfPlace` is the pattern of /repo/src/gate/update_ops_matrix.cpp:208-263 and 265-320: a second state `update`
is allocated uninitialised, a first kernel initialises it, a second kernel fills it from the old state, then
`std::swap(state._raw, update._raw)`.  Addresses `(false, i)` are the old state, `(true, i)` the new one. -/
inductive Device (R : Type) : Type
  | skip : Device R
  /-- `parallel_for` over a `RangePolicy` -/
  | par (N : Nat) (pool : Pool (Fin N) U64 R) : Device R
  /-- `parallel_for` over a `TeamPolicy` of `L` teams with a nested `TeamThreadRange` of `M` -/
  | team (L M : Nat) (pool : Pool (Fin L × Fin M) U64 R) : Device R
  | seq (a b : Device R) : Device R
  | outOfPlace (N L M : Nat) (init : Pool (Fin N) (Bool × U64) R)
      (update : Pool (Fin L × Fin M) (Bool × U64) R) : Device R

/-- memory with the old state and the contents of the freshly allocated one -/
def twoBuffers {R : Type} (m junk : U64 → R) : Bool × U64 → R := fun p => if p.1 then junk p.2 else m p.2

/-- `DRuns dim d m m'`: on a state of `dim` amplitudes holding `m`, the launches `d` never leave the allocation
and never race under any schedule, and always end with the state holding `m'` - also for any contents of
uninitialised memory. -/
def DRuns {R : Type} (dim : Nat) : Device R → (U64 → R) → (U64 → R) → Prop
  | .skip, m, m' => m' = m
  | Device.par _ pool, m, m' => Runs (InState dim) pool m m'
  | .team _ _ pool, m, m' => Runs (InState dim) pool m m'
  | .seq a b, m, m' => ∃ x, DRuns dim a m x ∧ DRuns dim b x m'
  | .outOfPlace _ _ _ init update, m, m' => ∀ junk : U64 → R, ∃ x y,
      Runs (fun p : Bool × U64 => InState dim p.2) init (twoBuffers m junk) x ∧
      Runs (fun p : Bool × U64 => InState dim p.2) update x y ∧
      ∀ j, m' j = if InState dim j then y (true, j) else m j

/-- the final state is determined by the initial state -/
theorem DRuns.unique {R : Type} {dim : Nat} {d : Device R} {m m₁ m₂ : U64 → R}
    (h₁ : DRuns dim d m m₁) (h₂ : DRuns dim d m m₂) : m₁ = m₂ := by
  induction d generalizing m m₁ m₂ with
  | skip => rw [h₁, h₂]
  | par ι pool => exact Runs.unique h₁ h₂
  | team L M pool => exact Runs.unique h₁ h₂
  | seq a b iha ihb =>
    obtain ⟨x, hx, hx'⟩ := h₁
    obtain ⟨y, hy, hy'⟩ := h₂
    obtain rfl := iha hx hy
    exact ihb hx' hy'
  | outOfPlace N L M init update =>
    obtain ⟨x, y, h1, h2, h3⟩ := h₁ m
    obtain ⟨x', y', h1', h2', h3'⟩ := h₂ m
    obtain rfl := h1.unique h1'
    obtain rfl := h2.unique h2'
    funext j
    rw [h3, h3']

end Verif
