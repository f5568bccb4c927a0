import Verif.Model.FloatReduce

/-!
# Sampling in floating-point arithmetic

`sampling` first computes the cumulative sums of the squared amplitudes with `Kokkos::parallel_scan` and then searches
them for random numbers converted to the type of the amplitudes.  In floating-point arithmetic the cumulative sums depend
on how the scan groups the additions; `ScanTable` leaves this open, `BlockTable` is what the host back ends of Kokkos do.
-/

namespace Verif.Model
open Verif

section
variable {F : Type} [Zero F] [Add F]

/-- the final pass of `Kokkos::parallel_scan` over consecutive work items with the contributions `xs`, starting from
`update = a`: the values stored in `stacked_prob[i + 1]` (/repo/src/state/state_vector.cpp:230-235) -/
def runningSums (a : F) : List F → List F
  | [] => []
  | x :: xs => (a + x) :: runningSums (a + x) xs

/-- the first pass (`final == false`) over a block: the total of its contributions, starting from the identity `0`
(/repo/src/state/state_vector.cpp:230-231) -/
def blockTotal (xs : List F) : F := xs.foldl (· + ·) 0

/-- the blocks of work items of a scan in their order; `off` is the sum of the totals of the blocks before
(/repo/src/state/state_vector.cpp:227-236) -/
def blockScan (off : F) : List (List F) → List F
  | [] => []
  | b :: bs => runningSums off b ++ blockScan (off + blockTotal b) bs

/-- `stacked_prob` after the scan (/repo/src/state/state_vector.cpp:226-236) on a host back end: each thread has a block of
consecutive work items, of any sizes. -/
def BlockTable (xs s : List F) : Prop := ∃ blocks : List (List F), blocks.flatten = xs ∧ s = 0 :: blockScan 0 blocks

/-- `stacked_prob` after the scan (/repo/src/state/state_vector.cpp:226-236), whatever the back end: element `0` keeps its
initial value, element `i + 1` is the sum of the contributions `0, …, i`, added up in any way. -/
def ScanTable (xs s : List F) : Prop :=
  s.length = xs.length + 1 ∧ s[0]? = some 0 ∧ ∀ i y, s[i + 1]? = some y → ReducesTo (xs.take (i + 1)) y

/-- the loop `while (hi - lo > 1)` (/repo/src/state/state_vector.cpp:252-260); `gt` is the comparison `>` of the type. -/
def searchLoopF (gt : F → F → Bool) (s : List F) (r : F) (lo hi : Nat) : Res Nat :=
  if _h : hi - lo > 1 then
    match s[(lo + hi) / 2]? with
    | none => .error (.ub "stacked_prob out of range")
    | some x => if gt x r then searchLoopF gt s r lo ((lo + hi) / 2) else searchLoopF gt s r ((lo + hi) / 2) hi
  else .ok lo
termination_by hi - lo
decreasing_by all_goals omega

/-- one index drawn with the random number `r` (/repo/src/state/state_vector.cpp:249-261) -/
def drawIndexF (gt : F → F → Bool) (s : List F) (r : F) : Res Nat := searchLoopF gt s r 0 s.length

/-- the part of `sampling` after the scan (/repo/src/state/state_vector.cpp:238-278), for the table `s`; `rnd` are the numbers
drawn, converted to the type of the amplitudes by `static_cast` (line 251). -/
def SamplesFrom (lib : FloatLib F) (gt : F → F → Bool) (dim : Nat) (s : List F) (count : Nat) (rnd : Nat → Nat → ℝ) (final : List Nat) : Prop :=
  ∃ result, SampleLoop dim (fun _ : Nat => fun r => drawIndexF gt s (lib.cast r)) (fun t => decide (t < count)) rnd 0 (List.range count)
    (fun _ => 0) result ∧ final = (List.range count).map result

/-- the same for batched states (/repo/src/state/state_vector_batched.cpp:139-192), `s b` being the table of slot `b` -/
def BatchSamplesFrom (lib : FloatLib F) (gt : F → F → Bool) (dim size : Nat) (s : Nat → List F) (count : Nat) (rnd : Nat → Nat → ℝ)
    (final : List (List Nat)) : Prop :=
  ∃ result, SampleLoop dim (fun t : Nat × Nat => fun r => drawIndexF gt (s t.1) (lib.cast r)) (fun t => decide (t.1 < size ∧ t.2 < count)) rnd 0
    ((List.range size).flatMap fun b => (List.range count).map fun j => (b, j)) (fun _ => 0) result ∧
    final = (List.range size).map fun b => (List.range count).map fun j => result (b, j)

variable {R : Type} [Cplx R F] [Mul F]

/-- the contributions of the scan: `squared_norm(_raw(i))` (/repo/src/state/state_vector.cpp:231,
/repo/src/state/state_vector_batched.cpp:132) -/
def scanItems (n : Nat) (ψ : U64 → R) : Res (List F) := (List.range (2 ^ n)).mapM fun i => readSqF (2 ^ n) ψ (BitVec.ofNat 64 i)

/-- the tables that the scan of /repo/src/state/state_vector.cpp:226-236 can leave -/
def StackedProbF (n : Nat) (ψ : U64 → R) (s : List F) : Prop := ∃ xs, scanItems n ψ = .ok xs ∧ ScanTable xs s

/-- those of the host back ends -/
def HostStackedProbF (n : Nat) (ψ : U64 → R) (s : List F) : Prop := ∃ xs, scanItems n ψ = .ok xs ∧ BlockTable xs s

/-- the table of `DensityMatrix::sampling` (/repo/src/state/density_matrix.cpp:394-403): the contributions are the real parts
of the diagonal. -/
def DMStackedProbF (n : Nat) (ρ : U64 × U64 → R) (s : List F) : Prop :=
  ScanTable ((List.range (2 ^ n)).map fun i => Cplx.re (ρ (BitVec.ofNat 64 i, BitVec.ofNat 64 i))) s

/-- /repo/src/state/state_vector.cpp:223-278 `sampling` returns `final` when the random numbers are `rnd`. -/
def SamplesF (lib : FloatLib F) (gt : F → F → Bool) (n : Nat) (ψ : U64 → R) (count : Nat) (rnd : Nat → Nat → ℝ) (final : List Nat) : Prop :=
  ∃ s, StackedProbF n ψ s ∧ SamplesFrom lib gt (2 ^ n) s count rnd final

end

end Verif.Model
