import Verif.Proofs.SparseStore
import Verif.Props.Gates

/-!
# C101: how the matrix of a sparse gate is stored and read back
-/

namespace Verif.Props
open Verif Verif.Spec Verif.Model Verif.Proofs

/-! ## Compressed matrices -/

/-- `gate::SparseMatrix` of a compressed matrix, or of any matrix with unsorted targets, performs the matrix of its elements on the targets.  Missing in
the partial theorem: matrices that are not compressed, with sorted targets. -/
theorem C101_apply_partial {ts cs vs : List Nat} {E : EMat ℂ} {g : SparseGate} (hE : SMat.OK E.elements (2 ^ ts.length))
    (hc : EMat.Compressed E ∨ ¬ isSorted ts) (h : mkSparseE ts E cs vs = .ok g) {L B n : Nat} (hf : Fits L B n) (ht : ∀ q ∈ ts, q < n)
    (hcs : ∀ c ∈ cs, c < n) : Performs (.sparse g) L B n (applyMat ts (storedEntry E.elements) (ctrlList cs vs)) := by
  have hb : mkSparse ts E.elements cs vs = .ok g := by
    unfold mkSparseE at h
    by_cases hs : isSorted ts
    · rw [if_pos hs] at h
      rw [ofEMat_compressed (hc.resolve_right (not_not_intro hs))] at h
      unfold mkSparse
      rw [if_pos hs]
      exact h
    · rwa [if_neg hs] at h
  refine performs_of_build (d := .sparse ts E.elements cs vs) hE (by simp only [GateDesc.build, hb, ok_bind]; rfl) hf ?_
  intro x hx
  simp only [qubitsOf, targetsOf, controlsOf, List.mem_append, List.mem_map] at hx
  rcases hx with h | ⟨p, hp, rfl⟩
  · exact ht _ h
  · exact hcs _ (mem_ctrlList hp)

/-- `get_matrix` of the gate of a compressed matrix is that matrix. -/
theorem C101_get_matrix_partial {E : EMat ℂ} {d : Nat} (hE : SMat.OK E.elements d) (hc : EMat.Compressed E) :
    ∃ M, (Csr.ofEMat E).toExternal = .ok M ∧ M.rows = d ∧ M.cols = d ∧ ∀ i j, i < d → j < d → M.entry i j = storedEntry E.elements i j := by
  rw [ofEMat_compressed hc]
  obtain ⟨M, h1, h2, h3, h4⟩ := csr_toExternal hE
  exact ⟨M, h1, h2, h3, fun i j hi hj => by rw [h4 i j hi hj, storedEntry_eq]⟩

/-- `get_matrix_internal` of the gate of a compressed matrix, square or not, is that matrix, whatever the order in which the teams write. -/
theorem C101_internal_partial {E : EMat ℂ} (hE : SMat.Rows E.elements) (hc : EMat.Compressed E) :
    (∃ out, SparseInternal (Csr.ofEMat E) out) ∧ ∀ out, SparseInternal (Csr.ofEMat E) out →
      ∃ v, out = .ok v ∧ v.rows = E.rows.length ∧ v.cols = E.cols ∧
        ∀ r < E.rows.length, ∀ c < E.cols, (Stored.view v).entry r c = .ok (storedEntry E.elements r c) := by
  have hlen : E.elements.stored.length = E.rows.length := List.length_map _
  have hall : (swapRows E.elements.stored).all (fun r => r.all fun p => decide (p.2 < E.cols)) = true := by
    rw [List.all_eq_true]
    intro r hr
    obtain ⟨row, hrow, rfl⟩ := List.mem_map.1 hr
    rw [List.all_eq_true]
    intro p hp
    obtain ⟨q, hq, rfl⟩ := List.mem_map.1 hp
    exact decide_eq_true ((hE row hrow).1 q hq)
  have hrun := internal_runs hE
  have hiff : ∀ out, SparseInternal (Csr.ofEMat E) out ↔ ∃ v, v.rows = E.elements.stored.length ∧ v.cols = E.cols ∧
      Runs (fun a => a < E.elements.stored.length * E.cols) (internalPool E.cols (swapRows E.elements.stored)) (fun _ => 0) v.mem ∧ out = .ok v := by
    intro out
    rw [ofEMat_compressed hc]
    unfold SparseInternal
    rw [csr_rows]
    show (if (swapRows E.elements.stored).all (fun r => r.all fun p => decide (p.2 < E.cols)) = true then _ else _) ↔ _
    rw [if_pos hall]
    exact Iff.rfl
  refine ⟨⟨_, (hiff _).2 ⟨⟨_, _, _⟩, rfl, rfl, hrun, rfl⟩⟩, fun out hout => ?_⟩
  obtain ⟨v, h1, h2, h3, rfl⟩ := (hiff _).1 hout
  refine ⟨v, rfl, h1.trans hlen, h2, fun r hr c hc' => ?_⟩
  simp only [Stored.entry]
  rw [if_pos ⟨by omega, by omega⟩, h2, h3.unique hrun]
  show Except.ok (E.elements.toDense.entry ((r * E.cols + c) / E.cols) ((r * E.cols + c) % E.cols)) = _
  rw [grid_div hc', grid_mod hc', storedEntry_eq]

/-! ## Matrices that are not compressed -/

/-- Applying the gate of a matrix with a reserved slot, made with sorted targets, is undefined behaviour on every register that has the qubits, and so are
`get_matrix` and `get_matrix_internal`: the row pointers count the reserved slots, the copied arrays do not have them. -/
theorem C101_counterexample_uncompressed {ts cs vs : List Nat} {E : EMat ℂ} {g : SparseGate} (hE : SMat.OK E.elements (2 ^ ts.length))
    (hc : ¬ EMat.Compressed E) (hs : isSorted ts) (h : mkSparseE ts E cs vs = .ok g) :
    (∀ {L B n : Nat}, Fits L B n → (∀ q ∈ ts, q < n) → (∀ c ∈ cs, c < n) → ∃ m, (UGate.sparse g).update L B n = .error (.ub m)) ∧
      (∃ m, (UGate.sparse g).getMatrix = .error (.ub m)) ∧ ∃ m, ∀ out, SparseInternal g.mat out ↔ out = .error (.ub m) := by
  obtain ⟨m, hm⟩ := rows_uncompressed hc
  unfold mkSparseE at h
  rw [if_pos hs] at h
  obtain ⟨vals, hv, h⟩ := bind_ok h
  obtain ⟨o, ho, h⟩ := bind_ok h
  cases h
  have hrow : ∀ {α : Type} (k : List (List (ℂ × Nat)) → Res α),
      ((List.range (Csr.ofEMat E).rows).mapM (Csr.ofEMat E).row >>= k) = .error (.ub m) := fun k => by rw [hm]; rfl
  refine ⟨fun {L B n} hf ht hcs => ⟨m, ?_⟩, ⟨m, hrow _⟩, m, fun out => ?_⟩
  · have hb : mkSparse ts E.elements cs vs = .ok ⟨.ofSMat E.elements, o⟩ := by
      simp only [mkSparse, hs, if_true, hv, ho, ok_bind]
      rfl
    obtain ⟨dev, hd, -⟩ := performs_of_build (d := .sparse ts E.elements cs vs) hE (by simp only [GateDesc.build, hb, ok_bind]; rfl) hf (by
      intro x hx
      simp only [qubitsOf, targetsOf, controlsOf, List.mem_append, List.mem_map] at hx
      rcases hx with h | ⟨p, hp, rfl⟩
      · exact ht _ h
      · exact hcs _ (mem_ctrlList hp))
    obtain ⟨u, hu, -⟩ := bind_ok (show (checkWithinBounds o n >>= fun _ => sparseKernel n o.t o.c o.v (Csr.ofSMat E.elements) (B * 2 ^ n)) = _ from hd)
    show (checkWithinBounds o n >>= fun _ => sparseKernel n o.t o.c o.v (Csr.ofEMat E) (B * 2 ^ n)) = _
    rw [hu, ok_bind]
    exact hrow _
  · unfold SparseInternal
    rw [hm]

/-! ## Examples -/

/-- the matrix of X, filled by `insert` after two slots were reserved for each row -/
def insertedX : EMat ℂ := ⟨2, [([(1, 1)], [(0, 0)]), ([(0, 1)], [(0, 0)])]⟩

theorem insertedX_ok : SMat.OK insertedX.elements (2 ^ [0].length) :=
  ⟨rfl, rfl, by simp [insertedX, EMat.elements]⟩

/-- Its elements are those of X, but the gate cannot be applied. -/
example : ∃ g, mkSparseE [0] insertedX [] [] = .ok g ∧ (∃ m, (UGate.sparse g).update 0 1 1 = .error (.ub m)) ∧
    (∀ i < 2, ∀ j < 2, storedEntry insertedX.elements i j = if i = j then 0 else 1) := by
  obtain ⟨o, ho⟩ := operands_exist (ts := [0]) (cs := []) (vs := []) (by simp) (by simp) (by simp)
    (by simp) (by simp) (by simp [effectiveValues]) (by simp [effectiveValues])
  obtain ⟨vals, hv, -⟩ := bind_ok ho
  have hg : mkSparseE [0] insertedX [] [] = .ok ⟨.ofEMat insertedX, o⟩ := by
    simp only [mkSparseE, isSorted, if_true, hv, ho, ok_bind]
    rfl
  refine ⟨_, hg, ?_, ?_⟩
  · exact (C101_counterexample_uncompressed insertedX_ok (by simp [EMat.Compressed, insertedX]) rfl hg).1
      ⟨Or.inl rfl, by norm_num, by norm_num⟩ (by simp) (by simp)
  · intro i hi j hj
    have hi' : i = 0 ∨ i = 1 := by omega
    have hj' : j = 0 ∨ j = 1 := by omega
    rcases hi' with rfl | rfl <;> rcases hj' with rfl | rfl <;> simp [storedEntry, insertedX, EMat.elements]

/-- After `makeCompressed` it is applied and read back. -/
example : ∃ g M, mkSparseE [0] ⟨2, [([(1, 1)], []), ([(0, 1)], [])]⟩ [] [] = .ok g ∧
    Performs (.sparse g) 0 1 1 (applyMat [0] (storedEntry insertedX.elements) []) ∧ g.mat.toExternal = .ok M ∧ M.entry 0 1 = 1 := by
  obtain ⟨o, ho⟩ := operands_exist (ts := [0]) (cs := []) (vs := []) (by simp) (by simp) (by simp)
    (by simp) (by simp) (by simp [effectiveValues]) (by simp [effectiveValues])
  obtain ⟨vals, hv, -⟩ := bind_ok ho
  have hg : mkSparseE [0] ⟨2, [([(1, 1)], []), ([(0, 1)], [])]⟩ [] [] = .ok ⟨.ofEMat ⟨2, [([(1, 1)], []), ([(0, 1)], [])]⟩, o⟩ := by
    simp only [mkSparseE, isSorted, if_true, hv, ho, ok_bind]
    rfl
  have hc : EMat.Compressed (⟨2, [([(1, 1)], []), ([(0, 1)], [])]⟩ : EMat ℂ) := by simp [EMat.Compressed]
  have hok : SMat.OK (⟨2, [([(1, 1)], []), ([(0, 1)], [])]⟩ : EMat ℂ).elements (2 ^ [0].length) := insertedX_ok
  obtain ⟨M, h1, h2, h3, h4⟩ := C101_get_matrix_partial hok hc
  refine ⟨_, M, hg, C101_apply_partial hok (Or.inl hc) hg ⟨Or.inl rfl, by norm_num, by norm_num⟩ (by simp) (by simp), h1, ?_⟩
  rw [h4 0 1 (by norm_num) (by norm_num)]
  simp [storedEntry, EMat.elements]

/-- A matrix with one row and three columns meets the hypotheses of the theorem about `get_matrix_internal`. -/
example : SMat.Rows (⟨3, [([(2, Complex.I), (0, 1)], [])]⟩ : EMat ℂ).elements ∧ EMat.Compressed (⟨3, [([(2, Complex.I), (0, 1)], [])]⟩ : EMat ℂ) := by
  constructor
  · simp only [SMat.Rows, EMat.elements, List.map_cons, List.map_nil, List.mem_singleton, forall_eq]
    refine ⟨?_, by simp⟩
    simp only [List.mem_cons, List.not_mem_nil, or_false, forall_eq_or_imp, forall_eq]
    omega
  · simp [EMat.Compressed]

end Verif.Props
