import Verif.Model.StateVec
import Verif.Model.Density

/-!
# Haar random states

The work item of index `i` takes a generator from the pool and draws two normally distributed numbers, which become the real and the
imaginary part of amplitude `i`.  Which generator an item receives depends on the schedule; the numbers `g i false` and `g i true` are
those that item `i` received, whatever the schedule.  C++ does not fix the order in which the two arguments of the constructor are
evaluated, so `g i false` may have been drawn before or after `g i true`.  The generators themselves (`Kokkos::Random_XorShift64_Pool`,
`normal(0, 1)`, `internal::resolve_seed`) are outside the model.
-/

namespace Verif.Model
open Verif

/-- the amplitude written by the item of index `i` (/repo/src/state/state_vector.cpp:79-84 and 91-96) -/
def haarItem (g : Nat → Bool → ℝ) (i : U64) : ℂ := ⟨g i.toNat false, g i.toNat true⟩

/-- /repo/src/state/state_vector.cpp:70-99 `set_Haar_random_state`, called on a state holding `ψ`, leaves `ψ'`: a kernel fills `_raw`, then
`normalize()` runs.  On `HostSerial` (73-86) the kernel fills a host array which is then copied to `_raw`; this is the same fill.
`Haar_random_state(n, seed)` is this call on a state that is allocated uninitialised, so for any `ψ`. -/
def SetsHaar (n : Nat) (g : Nat → Bool → ℝ) (ψ ψ' : U64 → ℂ) : Prop :=
  ∃ φ, DRuns (2 ^ n) (.par (2 ^ n) (fill (2 ^ n) (haarItem g))) ψ φ ∧ Normalizes n φ ψ'

/-- /repo/src/state/state_vector_batched.cpp:196-219 `Haar_random_state`, also `set_Haar_random_state` (112-115), where `s` is the batch
allocated uninitialised by `uninitialized_state(batch_size, n_qubits)` and `s'` is returned.  With `set_same_state` one state is drawn and
`set_state_vector` (30-44) copies it to every slot.  Otherwise a kernel over all pairs of slot and index fills every slot, its item
`(b, i)` receiving the numbers `g b i`, and `normalize` runs; items of different slots write different cells, so the kernel is one fill per
slot here. -/
def Batch.SetsHaar (same : Bool) (g : Nat → Nat → Bool → ℝ) (s s' : Batch) : Prop :=
  if same then
    s'.n = s.n ∧ s'.size = s.size ∧ ∃ junk ψ, Model.SetsHaar s.n (g 0) junk ψ ∧
      ∀ b, b < s.size → DRuns (2 ^ s.n) (.par (2 ^ s.n) (fill (2 ^ s.n) ψ)) (s.raw b) (s'.raw b)
  else
    ∃ t : Batch, t.n = s.n ∧ t.size = s.size ∧
      (∀ b, b < s.size → DRuns (2 ^ s.n) (.par (2 ^ s.n) (fill (2 ^ s.n) (haarItem (g b)))) (s.raw b) (t.raw b)) ∧ t.Normalizes s'

/-- /repo/src/state/density_matrix.cpp:216-221 `set_Haar_random_state`, also `Haar_random_state` (176-182) for any `d` of `n` qubits: a
random pure state is drawn and loaded -/
def DM.SetsHaar (g : Nat → Bool → ℝ) (d d' : DM) : Prop :=
  ∃ junk ψ, Model.SetsHaar d.n g junk ψ ∧ d.Does (.loadVector d.n ψ) d'

end Verif.Model
