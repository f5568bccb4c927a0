import Verif.Model.MatrixStore
import Verif.Proofs.Operator

namespace Verif.Proofs
open Verif Verif.Model

theorem grid_div {C r c : Nat} (hc : c < C) : (r * C + c) / C = r := by
  rw [Nat.mul_comm, Nat.mul_add_div (by omega), Nat.div_eq_of_lt hc, Nat.add_zero]

theorem grid_mod {C r c : Nat} (hc : c < C) : (r * C + c) % C = c := by
  rw [Nat.mul_comm, Nat.mul_add_mod, Nat.mod_eq_of_lt hc]

theorem grid_lt {R C r c : Nat} (hr : r < R) (hc : c < C) : r * C + c < R * C := by
  have : (r + 1) * C ≤ R * C := Nat.mul_le_mul_right _ hr
  rw [Nat.add_mul, Nat.one_mul] at this
  omega

theorem grid_runs {R C : Nat} {X : Type} (f : Fin R × Fin C → X) (m : Nat → X) :
    ∃ m', Runs (fun a => a < R * C) (fun w : Fin R × Fin C => Prog.store (w.1.val * C + w.2.val) (f w)) m m' ∧
      ∀ (r : Fin R) (c : Fin C), m' (r.val * C + c.val) = f (r, c) := by
  classical
  let g : Nat → X := fun a => if h : a / C < R ∧ a % C < C then f (⟨a / C, h.1⟩, ⟨a % C, h.2⟩) else m a
  have hg : ∀ (r : Fin R) (c : Fin C), g (r.val * C + c.val) = f (r, c) := by
    intro r c
    have h1 := grid_div (r := r.val) c.isLt
    have h2 := grid_mod (r := r.val) c.isLt
    show (if h : _ then _ else _) = _
    rw [dif_pos ⟨by rw [h1]; exact r.isLt, by rw [h2]; exact c.isLt⟩]
    congr 2
    · exact Fin.ext h1
    · exact Fin.ext h2
  refine ⟨g, ?_, hg⟩
  apply runs_of_disjoint _ _ _ _ (fun w a => a = w.1.val * C + w.2.val)
  · rintro i j a rfl h
    have h1 := congrArg (· / C) h
    have h2 := congrArg (· % C) h
    beta_reduce at h1 h2
    rw [grid_div i.2.isLt, grid_div j.2.isLt] at h1
    rw [grid_mod i.2.isLt, grid_mod j.2.isLt] at h2
    exact Prod.ext (Fin.ext h1) (Fin.ext h2)
  · rintro i a rfl
    exact grid_lt i.1.isLt i.2.isLt
  · intro i
    exact ⟨rfl, trivial⟩
  · rintro i a rfl
    rw [hg]
    show f i = Function.update m _ (f i) _
    rw [Function.update_self]
  · intro a ha
    show (if h : _ then _ else _) = _
    rw [dif_neg]
    rintro ⟨h1, h2⟩
    refine ha (⟨a / C, h1⟩, ⟨a % C, h2⟩) ?_
    show a = a / C * C + a % C
    rw [Nat.mul_comm]
    exact (Nat.div_add_mod a C).symm

theorem grid_result {R C : Nat} {X : Type} {f : Fin R × Fin C → X} {m m' : Nat → X}
    (h : Runs (fun a => a < R * C) (fun w : Fin R × Fin C => Prog.store (w.1.val * C + w.2.val) (f w)) m m') (r : Fin R) (c : Fin C) :
    m' (r.val * C + c.val) = f (r, c) := by
  obtain ⟨g, hg, hv⟩ := grid_runs f m
  rw [h.unique hg]
  exact hv r c

theorem toU32_fin {n : Nat} (hn : n ≤ 2 ^ 32) (i : Fin n) : toU32 i.val = i.val := Nat.mod_eq_of_lt (lt_of_lt_of_le i.isLt hn)

variable {F : Type} {lib : FloatLib F} {val : F → ℝ}

theorem narrowPool_eq {M : ExtMat} (hr : M.rows ≤ 2 ^ 32) (hc : M.cols ≤ 2 ^ 32) :
    narrowPool lib M = fun w => Prog.store (w.1.val * M.cols + w.2.val) (narrowC lib (M.data (w.1.val * M.cols + w.2.val))) := by
  funext w
  unfold narrowPool
  rw [toU32_fin hr, toU32_fin hc]

theorem toInternal_exists {M : ExtMat} (hr : M.rows ≤ 2 ^ 32) (hc : M.cols ≤ 2 ^ 32) : ∃ v, ToInternalF lib M v := by
  obtain ⟨g, hg, -⟩ := grid_runs (fun w : Fin M.rows × Fin M.cols => narrowC lib (M.data (w.1.val * M.cols + w.2.val))) (fun _ => narrowC lib 0)
  refine ⟨⟨M.rows, M.cols, g⟩, rfl, rfl, fun _ => narrowC lib 0, ?_⟩
  rw [narrowPool_eq hr hc]
  exact hg

theorem toInternal_entry {M : ExtMat} (hr : M.rows ≤ 2 ^ 32) (hc : M.cols ≤ 2 ^ 32) {v : MatView (Cx F)} (h : ToInternalF lib M v) :
    v.rows = M.rows ∧ v.cols = M.cols ∧ ∀ r < M.rows, ∀ c < M.cols, v.mem (r * M.cols + c) = narrowC lib (M.data (r * M.cols + c)) := by
  obtain ⟨h1, h2, m, hm⟩ := h
  rw [narrowPool_eq hr hc] at hm
  exact ⟨h1, h2, fun r h c h' => grid_result hm ⟨r, h⟩ ⟨c, h'⟩⟩

theorem toExternal_exists (v : MatView (Cx F)) : ∃ N, ToExternalF val v N := by
  obtain ⟨g, hg, -⟩ := grid_runs (fun w : Fin (toInt32 v.rows).toNat × Fin (toInt32 v.cols).toNat =>
    widenC val (v.mem (w.1.val * v.cols + w.2.val))) (fun _ => 0)
  exact ⟨⟨_, _, g⟩, rfl, rfl, fun _ => 0, hg⟩

theorem toExternal_entry {v : MatView (Cx F)} (hr : v.rows < 2 ^ 31) (hc : v.cols < 2 ^ 31) {N : ExtMat} (h : ToExternalF val v N) :
    N.rows = v.rows ∧ N.cols = v.cols ∧ ∀ r < v.rows, ∀ c < v.cols, N.data (r * v.cols + c) = widenC val (v.mem (r * v.cols + c)) := by
  obtain ⟨h1, h2, m, hm⟩ := h
  rw [toInt32_small hr] at h1
  rw [toInt32_small hc] at h2
  refine ⟨h1, h2, fun r h c h' => ?_⟩
  have := grid_result hm ⟨r, by omega⟩ ⟨c, by omega⟩
  dsimp only at this
  rw [h2] at this
  exact this

/-- the values of a stored matrix -/
def HoldsEntries (s : Stored (Cx F)) (R C : Nat) (e : Nat → Nat → Cx F) : Prop :=
  (∀ r < R, ∀ c < C, s.entry r c = .ok (e r c)) ∧ ∀ r c, ¬ (r < R ∧ c < C) → ∃ m, s.entry r c = .error (.ub m)

theorem stores_holds {M : ExtMat} (hr : M.rows < 2 ^ 31) (hc : M.cols < 2 ^ 31) {s : Stored (Cx F)} (h : StoresF lib M s) :
    HoldsEntries s M.rows M.cols fun r c => narrowC lib (M.data (r * M.cols + c)) := by
  unfold StoresF at h
  split at h
  · rename_i hM
    subst h
    rw [hM.1, hM.2]
    refine ⟨fun r hr c hc => ?_, fun r c hn => ?_⟩
    · obtain rfl : r = 0 := by omega
      obtain rfl : c = 0 := by omega
      simp [Stored.entry]
    · simp only [Stored.entry]
      rw [if_neg (by omega)]
      exact ⟨_, rfl⟩
  · split at h
    · rename_i hM
      subst h
      rw [hM.1, hM.2]
      refine ⟨fun r hr c hc => ?_, fun r c hn => ?_⟩
      · simp only [Stored.entry]
        rw [dif_pos ⟨hr, hc⟩]
      · simp only [Stored.entry]
        rw [dif_neg hn]
        exact ⟨_, rfl⟩
    · split at h
      · rename_i hM
        subst h
        rw [hM.1, hM.2]
        refine ⟨fun r hr c hc => ?_, fun r c hn => ?_⟩
        · simp only [Stored.entry]
          rw [dif_pos ⟨hr, hc⟩]
        · simp only [Stored.entry]
          rw [dif_neg hn]
          exact ⟨_, rfl⟩
      · obtain ⟨v, hv, rfl⟩ := h
        obtain ⟨h1, h2, h3⟩ := toInternal_entry (by omega) (by omega) hv
        refine ⟨fun r hr c hc => ?_, fun r c hn => ?_⟩
        · simp only [Stored.entry]
          rw [if_pos ⟨by omega, by omega⟩, h2, h3 r hr c hc]
        · simp only [Stored.entry]
          rw [if_neg (by rw [h1, h2]; exact hn)]
          exact ⟨_, rfl⟩

theorem stores_exists {M : ExtMat} (hr : M.rows < 2 ^ 31) (hc : M.cols < 2 ^ 31) : ∃ s, StoresF lib M s := by
  unfold StoresF
  split
  · exact ⟨_, rfl⟩
  · split
    · exact ⟨_, rfl⟩
    · split
      · exact ⟨_, rfl⟩
      · obtain ⟨v, hv⟩ := toInternal_exists (lib := lib) (M := M) (by omega) (by omega)
        exact ⟨_, v, hv, rfl⟩

/-- `get_matrix` returns what is stored -/
theorem getMatrix_of_stores {M : ExtMat} (hr : M.rows < 2 ^ 31) (hc : M.cols < 2 ^ 31) {s : Stored (Cx F)} (h : StoresF lib M s) :
    (∃ N, GetMatrixF val s N) ∧ ∀ N, GetMatrixF val s N → N.rows = M.rows ∧ N.cols = M.cols ∧
      ∀ r < M.rows, ∀ c < M.cols, N.data (r * M.cols + c) = widenC val (narrowC lib (M.data (r * M.cols + c))) := by
  unfold StoresF at h
  split at h
  · rename_i hM
    subst h
    rw [hM.1, hM.2]
    refine ⟨⟨⟨1, 1, fun _ => _⟩, rfl, rfl, rfl⟩, fun N ⟨h1, h2, h3⟩ => ⟨h1, h2, fun r hr c hc => ?_⟩⟩
    obtain rfl : r = 0 := by omega
    obtain rfl : c = 0 := by omega
    exact h3
  · split at h
    · rename_i hM
      subst h
      rw [hM.1, hM.2]
      refine ⟨⟨⟨2, 2, fun a => widenC val (narrowC lib (M.data a))⟩, rfl, rfl, fun i j => rfl⟩, fun N ⟨h1, h2, h3⟩ => ⟨h1, h2, fun r hr c hc => ?_⟩⟩
      exact h3 ⟨r, hr⟩ ⟨c, hc⟩
    · split at h
      · rename_i hM
        subst h
        rw [hM.1, hM.2]
        refine ⟨⟨⟨4, 4, fun a => widenC val (narrowC lib (M.data a))⟩, rfl, rfl, fun i j => rfl⟩, fun N ⟨h1, h2, h3⟩ => ⟨h1, h2, fun r hr c hc => ?_⟩⟩
        exact h3 ⟨r, hr⟩ ⟨c, hc⟩
      · obtain ⟨v, hv, rfl⟩ := h
        obtain ⟨e1, e2, e3⟩ := toInternal_entry (by omega) (by omega) hv
        refine ⟨toExternal_exists v, fun N hN => ?_⟩
        obtain ⟨h1, h2, h3⟩ := toExternal_entry (by omega) (by omega) hN
        rw [e2, e1] at h3
        exact ⟨h1.trans e1, h2.trans e2, fun r hr c hc => by rw [h3 r hr c hc, e3 r hr c hc]⟩

end Verif.Proofs
