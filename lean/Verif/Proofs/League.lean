import Verif.Model.League
import Verif.Proofs.GateUpdate
import Verif.Proofs.GateBuild

/-! # Leagues of the matrix kernels -/

namespace Verif.Proofs
open Verif Verif.Spec Verif.Model
open Verif.Prog (load store)
attribute [-simp] BitVec.getLsbD_eq_getElem

theorem leagueSize_fits {n : Nat} (h : n < 2 ^ 31) : leagueSize n = .ok n := by
  unfold leagueSize
  rw [Nat.mod_eq_of_lt (by omega), if_pos h]

theorem leagueSize_zero (b k : Nat) (h : 32 ≤ k) : leagueSize (b * 2 ^ k) = .ok 0 := by
  obtain ⟨l, rfl⟩ := Nat.exists_eq_add_of_le h
  unfold leagueSize
  rw [Nat.pow_add, Nat.mul_left_comm, Nat.mul_mod_right, if_pos (by norm_num)]

theorem leagueSize_negative {b : Nat} (h : b % 2 = 1) : leagueSize (b * 2 ^ 31) = .error (.ub "negative league size") := by
  unfold leagueSize
  rw [if_neg]
  omega

theorem teams_small {R : Type} [Zero R] [Add R] [Mul R] {n : Nat} {t c v : U64} {M : Nat → Nat → R} {dim : Nat}
    (h : workItems dim (t ||| c) < 2 ^ 31) : multiDenseLeague n t c v M dim = .ok (multiDense n t c v M dim) := by
  unfold multiDenseLeague
  rw [leagueSize_fits h]
  rfl

theorem teams_small_sparse {R : Type} [Zero R] [Add R] [Mul R] {n : Nat} {t c v : U64} {m : Csr R} {dim : Nat}
    (h : workItems dim (t ||| c) < 2 ^ 31) : sparseKernelLeague n t c v m dim = sparseKernel n t c v m dim := by
  unfold sparseKernelLeague
  rw [leagueSize_fits h]
  rfl

/-- number of teams of the kernels of a gate with these operands -/
theorem teams_eq {ts cs vs : List Nat} {o : Operands} (hmk : mkOperands ts cs vs = .ok o) {B n : Nat} (hn : n < 64)
    (hb : ∀ q, q ∈ ts ∨ q ∈ cs → q < n) : workItems (B * 2 ^ n) (o.t ||| o.c) = B * 2 ^ (n - (ts.length + cs.length)) := by
  obtain ⟨tn, tl, cn, cl, hdisj, -, -, tb, cb, -⟩ := mkOperands_ok hmk
  have hp : popcount (o.t ||| o.c) = ts.length + cs.length := by
    rw [popcount_or_disj, popcount_length ⟨tn, tl⟩ tb, popcount_length ⟨cn, cl⟩ cb]
    intro i
    rw [tb, cb]
    by_cases h : i ∈ ts
    · simp [hdisj i h]
    · simp [h]
  rw [workItems_eq, hp]
  rw [toNat_lt_two_pow_iff]
  intro i hi
  rw [BitVec.getLsbD_or, tb, cb]
  have h1 : i ∉ ts := fun h => by have := hb i (.inl h); omega
  have h2 : i ∉ cs := fun h => by have := hb i (.inr h); omega
  simp [h1, h2]

/-- a league without teams: every amplitude selected by the controls becomes zero -/
theorem no_teams {R : Type} [Zero R] [Add R] [Mul R] {dim n nRows : Nat} {t c v : U64} (hdim : dim ≤ 2 ^ 64)
    (rows : Fin nRows → List (R × Nat)) (ψ : U64 → R) :
    DRuns dim (.outOfPlace dim 0 nRows (outOfPlaceInit c v dim) (outOfPlaceTeams n t c v nRows rows 0)) ψ
      (fun j => if InState dim j ∧ j &&& c = v then 0 else ψ j) := by
  intro junk
  refine ⟨_, twoBuffers ψ fun j => if InState dim j then (if j &&& c = v then 0 else ψ j) else junk j, init_runs hdim c v ψ junk, runs_of_shared _ _ _ _ (fun _ _ => False) (fun _ => False) ?_ ?_ ?_ ?_ ?_ ?_ ?_, ?_⟩
  · rintro ⟨i, -⟩; exact i.elim0
  · rintro ⟨i, -⟩; exact i.elim0
  · rintro ⟨i, -⟩; exact i.elim0
  · intro a h; exact h.elim
  · rintro ⟨i, -⟩; exact i.elim0
  · rintro ⟨i, -⟩; exact i.elim0
  · intro a _; rfl
  · intro j
    show _ = if InState dim j then (if InState dim j then _ else _) else _
    by_cases hj : InState dim j
    · by_cases hc : j &&& c = v <;> simp [hj, hc]
    · simp [hj]

end Verif.Proofs
