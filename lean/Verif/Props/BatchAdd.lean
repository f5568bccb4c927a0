import Verif.Model.BatchAdd
import Verif.Props.State

/-!
# C56: adding and setting batches of states
-/

namespace Verif.Props
open Verif Verif.Spec Verif.Model Verif.Proofs

variable {R : Type} [Add R] [Mul R]

omit [Add R] [Mul R] in
theorem twoBatches_inj {x x' y : Nat → U64 → R} (h : twoBatches x y = twoBatches x' y) : x = x' := by
  funext b j
  exact congrFun h (false, b, j)

/-- **C56 (batched addition).** Under every schedule `add_state_vector_with_coef` of a batch of equally many, equally large states adds `c` times state `b`
of the argument to state `b`, amplitude by amplitude, and touches nothing else; in any arithmetic. -/
theorem C56_add_batched {B n : Nat} (hn : n ≤ 63) (c : R) (x y : Nat → U64 → R) (out : Res (Nat → U64 → R)) :
    BatchAddsWithCoef B n B n c x y out ↔ out = .ok fun b j => if b < B ∧ j.toNat < 2 ^ n then x b j + c * y b j else x b j := by
  have hd := pow64 hn
  have hrun : Runs (fun p : Bool × Nat × U64 => if p.1 then p.2.1 < B ∧ p.2.2.toNat < 2 ^ n else p.2.1 < B ∧ p.2.2.toNat < 2 ^ n)
      (batchAddPool B (2 ^ n) c) (twoBatches x y)
      (twoBatches (fun b j => if b < B ∧ j.toNat < 2 ^ n then x b j + c * y b j else x b j) y) := by
    apply runs_of_shared _ _ _ _ (fun w p => p = (false, w.1.val, BitVec.ofNat 64 w.2.val))
      (fun p => p.1 = true ∧ p.2.1 < B ∧ p.2.2.toNat < 2 ^ n)
    · rintro i j a rfl h
      obtain ⟨-, h⟩ := Prod.ext_iff.1 h
      obtain ⟨h1, h2⟩ := Prod.ext_iff.1 h
      have h2 := congrArg BitVec.toNat h2
      simp only [ofNat_fin hd] at h2
      exact Prod.ext (Fin.ext h1) (Fin.ext h2)
    · rintro i a rfl ⟨h, -⟩
      cases h
    · rintro i a rfl
      show i.1.val < B ∧ (BitVec.ofNat 64 i.2.val).toNat < 2 ^ n
      rw [ofNat_fin hd]
      exact ⟨i.1.isLt, i.2.isLt⟩
    · rintro ⟨a, b, j⟩ ⟨h, h'⟩
      dsimp only at h h' ⊢
      subst h
      exact h'
    · intro i
      refine ⟨.inl rfl, fun _ => ⟨.inr ⟨rfl, i.1.isLt, ?_⟩, fun _ => ⟨rfl, trivial⟩⟩⟩
      show (BitVec.ofNat 64 i.2.val).toNat < 2 ^ n
      rw [ofNat_fin hd]
      exact i.2.isLt
    · rintro i a rfl
      show (if i.1.val < B ∧ (BitVec.ofNat 64 i.2.val).toNat < 2 ^ n then _ else _) = Function.update (twoBatches x y)
        (false, i.1.val, BitVec.ofNat 64 i.2.val) (x i.1.val (BitVec.ofNat 64 i.2.val) + c * y i.1.val (BitVec.ofNat 64 i.2.val)) _
      rw [Function.update_self, if_pos ⟨i.1.isLt, by rw [ofNat_fin hd]; exact i.2.isLt⟩]
    · rintro ⟨a, b, j⟩ ha
      cases a
      · show (if b < B ∧ j.toNat < 2 ^ n then _ else _) = x b j
        rw [if_neg]
        intro h
        exact ha (⟨b, h.1⟩, ⟨j.toNat, h.2⟩) (by simp)
      · rfl
  unfold BatchAddsWithCoef
  rw [if_neg (by simp)]
  constructor
  · rintro ⟨x', hx', rfl⟩
    rw [twoBatches_inj (hx'.unique hrun)]
  · rintro rfl
    exact ⟨_, hrun, rfl⟩

/-- **C56 (batched addition, sizes).** A batch with another number of states or of qubits is refused, unlike in the addition of single states. -/
theorem C56_add_batched_throws {B n B' n' : Nat} (h : n ≠ n' ∨ B ≠ B') (c : R) (x y : Nat → U64 → R) (out : Res (Nat → U64 → R)) :
    BatchAddsWithCoef B n B' n' c x y out ↔
      out = .error (.throw "Error: StateVectorBatched::add_state_vector(const StateVectorBatched&): invalid states") := by
  unfold BatchAddsWithCoef
  rw [if_pos h]

/-- Adding `2i` times the second batch to a batch of three states of two qubits changes amplitude 3 of state 1 as it should; state 3 does not exist and
keeps what is in its place. -/
example (x y : Nat → U64 → ℂ) : ∃ x', BatchAddsWithCoef 3 2 3 2 (2 * Complex.I) x y (.ok x') ∧ x' 1 3 = x 1 3 + 2 * Complex.I * y 1 3 ∧
    x' 3 0 = x 3 0 :=
  ⟨_, (C56_add_batched (by norm_num) _ x y _).2 rfl, by simp, by simp⟩

/-- Four states are not added to three. -/
example (x y : Nat → U64 → ℂ) (x' : Nat → U64 → ℂ) : ¬ BatchAddsWithCoef 3 2 4 2 1 x y (.ok x') := fun h => by
  cases (C56_add_batched_throws (by norm_num) 1 x y _).1 h

omit [Add R] [Mul R] in
/-- **C56 (batched basis states).** Under every schedule `set_computational_basis` sets every state of the batch to the basis state and touches nothing
else; an index outside of the states is refused. -/
theorem C56_basis_batched [_root_.Zero R] [One R] {B n basis : Nat} (hn : n ≤ 63) (x : Nat → U64 → R) (out : Res (Nat → U64 → R)) :
    (basis < 2 ^ n → (BatchSetsBasis B n basis x out ↔
      out = .ok fun b j => if b < B ∧ j.toNat < 2 ^ n then (if j.toNat = basis then 1 else 0) else x b j)) ∧
    (2 ^ n ≤ basis → (BatchSetsBasis B n basis x out ↔ out = .error (.throw
      "Error: StateVectorBatched::set_computational_basis(std::uint64_t): index of computational basis must be smaller than 2^qubit_count"))) := by
  have hd := pow64 hn
  refine ⟨fun hb => ?_, fun hb => by unfold BatchSetsBasis; rw [if_pos hb]⟩
  have hrun : Runs (fun p : Nat × U64 => p.1 < B ∧ p.2.toNat < 2 ^ n) (batchBasisPool B (2 ^ n) basis) (fun p => x p.1 p.2)
      (fun p : Nat × U64 => if p.1 < B ∧ p.2.toNat < 2 ^ n then (if p.2.toNat = basis then (1 : R) else 0) else x p.1 p.2) := by
    apply runs_of_disjoint _ _ _ _ (fun w p => p = (w.1.val, BitVec.ofNat 64 w.2.val))
    · rintro i j a rfl h
      obtain ⟨h1, h2⟩ := Prod.ext_iff.1 h
      have h2 := congrArg BitVec.toNat h2
      simp only [ofNat_fin hd] at h2
      exact Prod.ext (Fin.ext h1) (Fin.ext h2)
    · rintro i a rfl
      show i.1.val < B ∧ (BitVec.ofNat 64 i.2.val).toNat < 2 ^ n
      rw [ofNat_fin hd]
      exact ⟨i.1.isLt, i.2.isLt⟩
    · intro i
      exact ⟨rfl, trivial⟩
    · rintro i a rfl
      show (if i.1.val < B ∧ (BitVec.ofNat 64 i.2.val).toNat < 2 ^ n then
        (if (BitVec.ofNat 64 i.2.val).toNat = basis then (1 : R) else 0) else _) = Function.update (fun p : Nat × U64 => x p.1 p.2) _ _ _
      rw [Function.update_self, ofNat_fin hd, if_pos ⟨i.1.isLt, i.2.isLt⟩]
    · rintro ⟨b, j⟩ ha
      show (if b < B ∧ j.toNat < 2 ^ n then _ else _) = x b j
      rw [if_neg]
      intro h
      exact ha (⟨b, h.1⟩, ⟨j.toNat, h.2⟩) (by simp)
  unfold BatchSetsBasis
  rw [if_neg (by omega)]
  constructor
  · rintro ⟨x', hx', rfl⟩
    rw [hx'.unique hrun]
  · rintro rfl
    exact ⟨_, hrun, rfl⟩

/-- All three states of two qubits become the basis state 2; 4 is refused. -/
example (x : Nat → U64 → ℂ) : (∃ x', BatchSetsBasis 3 2 2 x (.ok x') ∧ x' 2 2 = 1 ∧ x' 2 3 = 0 ∧ x' 3 2 = x 3 2) ∧
    ∀ x', ¬ BatchSetsBasis 3 2 4 x (.ok x') := by
  refine ⟨⟨_, ((C56_basis_batched (by norm_num) x _).1 (by norm_num)).2 rfl, by simp, by simp, by simp⟩, fun x' h => ?_⟩
  cases ((C56_basis_batched (by norm_num) x _).2 (by norm_num)).1 h

end Verif.Props
