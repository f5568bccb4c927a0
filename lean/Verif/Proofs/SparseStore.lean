import Verif.Model.SparseStore
import Verif.Proofs.MatrixStore
import Verif.Proofs.GateUpdate

namespace Verif.Proofs
open Verif Verif.Model

variable {R : Type}

/-- no reserved slots -/
def EMat.Compressed (E : EMat R) : Prop := ∀ p ∈ E.rows, p.2 = []

theorem slots_compressed {E : EMat R} (h : EMat.Compressed E) : E.slots = E.elements.stored := by
  unfold EMat.slots EMat.elements
  apply List.map_congr_left
  intro p hp
  rw [h p hp, List.append_nil]

theorem ofEMat_compressed {E : EMat R} (h : EMat.Compressed E) : Csr.ofEMat E = Csr.ofSMat E.elements := by
  unfold Csr.ofEMat Csr.ofSMat EMat.nonZeros
  rw [slots_compressed h, List.take_length]
  simp [EMat.elements]

theorem elemAt_none {α : Type} {l : List α} {i : Nat} (h : l.length ≤ i) : ∃ m, elemAt l i = .error (.ub m) := by
  unfold elemAt
  rw [List.getElem?_eq_none h]
  exact ⟨_, rfl⟩

theorem elemAt_ub {α : Type} {l : List α} {i : Nat} {e : Fault} (h : elemAt l i = .error e) : ∃ m, e = .ub m := by
  unfold elemAt at h
  split at h
  · cases h
  · cases h
    exact ⟨_, rfl⟩

theorem mapM_ub {α β : Type} {f : α → Res β} {l : List α} (hub : ∀ y ∈ l, ∀ e, f y = .error e → ∃ m, e = .ub m) {e : Fault}
    (h : l.mapM f = .error e) : ∃ m, e = .ub m := by
  induction l with
  | nil => cases h
  | cons a l ih =>
    rw [List.mapM_cons] at h
    cases ha : f a with
    | error e' =>
      rw [ha] at h
      cases h
      exact hub a (by simp) _ ha
    | ok b =>
      rw [ha, ok_bind] at h
      cases hl : l.mapM f with
      | error e' =>
        rw [hl] at h
        cases h
        exact ih (fun y hy => hub y (by simp [hy])) hl
      | ok bs =>
        rw [hl] at h
        cases h

theorem mapM_error {α β : Type} {f : α → Res β} {l : List α} {x : α} (hx : x ∈ l) {e : Fault} (he : f x = .error e) :
    ∃ e', l.mapM f = .error e' := by
  induction l with
  | nil => cases hx
  | cons a l ih =>
    rw [List.mapM_cons]
    cases ha : f a with
    | error e' => exact ⟨e', rfl⟩
    | ok b =>
      have : x ∈ l := by
        rcases List.mem_cons.1 hx with rfl | h
        · rw [ha] at he
          cases he
        · exact h
      obtain ⟨e', h⟩ := ih this
      rw [h]
      exact ⟨e', rfl⟩

theorem row_ub {m : Csr R} {r : Nat} {e : Fault} (h : m.row r = .error e) : ∃ s, e = .ub s := by
  unfold Csr.row at h
  cases h1 : elemAt m.rowPtr r with
  | error e' =>
    rw [h1] at h
    cases h
    exact elemAt_ub h1
  | ok lo =>
    rw [h1, ok_bind] at h
    cases h2 : elemAt m.rowPtr (r + 1) with
    | error e' =>
      rw [h2] at h
      cases h
      exact elemAt_ub h2
    | ok hi =>
      rw [h2, ok_bind] at h
      refine mapM_ub (fun y _ e h => ?_) h
      cases h3 : elemAt m.colIdx y with
      | error e' =>
        rw [h3] at h
        cases h
        exact elemAt_ub h3
      | ok c =>
        rw [h3, ok_bind] at h
        cases h4 : elemAt m.vals y with
        | error e' =>
          rw [h4] at h
          cases h
          exact elemAt_ub h4
        | ok x =>
          rw [h4] at h
          cases h

/-- the row of a slot -/
theorem flatten_row {α : Type} (l : List (List α)) {i : Nat} (h : i < l.flatten.length) :
    ∃ r, ∃ hr : r < l.length, (l.take r).flatten.length ≤ i ∧ i < (l.take r).flatten.length + l[r].length := by
  induction l generalizing i with
  | nil => simp at h
  | cons a l ih =>
    by_cases hi : i < a.length
    · exact ⟨0, by simp, by simp, by simpa using hi⟩
    · rw [List.flatten_cons, List.length_append] at h
      obtain ⟨r, hr, h1, h2⟩ := ih (i := i - a.length) (by omega)
      refine ⟨r + 1, by simpa using hr, ?_, ?_⟩
      · rw [List.take_succ_cons, List.flatten_cons, List.length_append]
        omega
      · rw [List.take_succ_cons, List.flatten_cons, List.length_append, List.getElem_cons_succ]
        omega

theorem slots_length (E : EMat R) : E.slots.flatten.length = E.nonZeros + (E.rows.map fun p => p.2.length).sum := by
  obtain ⟨cols, rows⟩ := E
  unfold EMat.slots EMat.nonZeros EMat.elements
  dsimp only
  induction rows with
  | nil => simp
  | cons p l ih =>
    simp only [List.map_cons, List.flatten_cons, List.length_append, List.sum_cons] at ih ⊢
    omega

theorem spare_pos {E : EMat R} (h : ¬ EMat.Compressed E) : E.nonZeros < E.slots.flatten.length := by
  rw [slots_length]
  unfold EMat.Compressed at h
  push Not at h
  obtain ⟨p, hp, hne⟩ := h
  have h1 : p.2.length ∈ E.rows.map fun p => p.2.length := List.mem_map_of_mem hp
  have h2 := List.single_le_sum (fun _ _ => Nat.zero_le _) _ h1
  have h3 : 0 < p.2.length := List.length_pos_iff.2 hne
  omega

/-- some row reads past the end of the copied arrays -/
theorem rows_uncompressed {E : EMat R} (h : ¬ EMat.Compressed E) :
    ∃ s, (List.range (Csr.ofEMat E).rows).mapM (Csr.ofEMat E).row = .error (.ub s) := by
  have hp := spare_pos h
  obtain ⟨r, hr, h1, h2⟩ := flatten_row E.slots (i := E.slots.flatten.length - 1) (by omega)
  have hr' : r < E.rows.length := by simpa [EMat.slots] using hr
  have hrow : ∃ e, (Csr.ofEMat E).row r = .error e := by
    unfold Csr.row
    have g1 : elemAt (Csr.ofEMat E).rowPtr r = .ok (E.slots.take r).flatten.length := by
      apply elemAt_of
      show (outerIndex 0 E.slots)[r]? = _
      rw [outerIndex_get 0 _ (by omega), Nat.zero_add]
    have g2 : elemAt (Csr.ofEMat E).rowPtr (r + 1) = .ok ((E.slots.take r).flatten.length + E.slots[r].length) := by
      apply elemAt_of
      show (outerIndex 0 E.slots)[r + 1]? = _
      rw [outerIndex_get 0 _ (by omega), Nat.zero_add, List.take_succ_eq_append_getElem hr]
      simp only [List.flatten_append, List.flatten_cons, List.flatten_nil, List.append_nil, List.length_append]
    rw [g1, g2, ok_bind, ok_bind, Nat.add_sub_cancel_left]
    obtain ⟨s, hs⟩ := elemAt_none (l := (Csr.ofEMat E).colIdx) (i := E.slots.flatten.length - 1) (by
      show ((E.slots.flatten.take E.nonZeros).map Prod.fst).length ≤ _
      rw [List.length_map, List.length_take]
      omega)
    refine mapM_error (x := E.slots.flatten.length - 1) (e := .ub s) ?_ ?_
    · rw [List.mem_range'_1]
      exact ⟨h1, h2⟩
    · rw [hs]
      rfl
  obtain ⟨e, he⟩ := hrow
  obtain ⟨e', he'⟩ := mapM_error (f := (Csr.ofEMat E).row) (l := List.range (Csr.ofEMat E).rows) (x := r) (List.mem_range.2 hr') he
  obtain ⟨s, rfl⟩ := mapM_ub (fun y _ e h => row_ub h) he'
  exact ⟨s, he'⟩

/-! ## `get_matrix_internal` -/

/-- elements of a row are in the matrix, and no column occurs twice -/
def SMat.Rows (m : SMat R) : Prop := ∀ row ∈ m.stored, (∀ p ∈ row, p.1 < m.cols) ∧ (row.map Prod.fst).Nodup

theorem find_nodup {row : List (Nat × R)} (hnd : (row.map Prod.fst).Nodup) {p : Nat × R} (hp : p ∈ row) :
    row.find? (fun q => decide (q.1 = p.1)) = some p := by
  induction row with
  | nil => cases hp
  | cons q row ih =>
    rw [List.map_cons, List.nodup_cons] at hnd
    rw [List.find?_cons]
    rcases List.mem_cons.1 hp with rfl | h
    · simp
    · have : q.1 ≠ p.1 := fun e => hnd.1 (e ▸ List.mem_map_of_mem h)
      simp only [this, decide_false]
      exact ih hnd.2 h

/-- the rows as the kernels see them -/
def swapRows (l : List (List (Nat × R))) : List (List (R × Nat)) := l.map fun row => row.map fun p => (p.2, p.1)

variable [_root_.Zero R]

theorem internal_runs {m : SMat R} (h : SMat.Rows m) :
    Runs (fun a => a < m.stored.length * m.cols) (internalPool m.cols (swapRows m.stored)) (fun _ => 0)
      (fun a => m.toDense.entry (a / m.cols) (a % m.cols)) := by
  classical
  have hlen : (swapRows m.stored).length = m.stored.length := List.length_map _
  have hget : ∀ w : Σ r : Fin (swapRows m.stored).length,
      Fin ((swapRows m.stored)[r.val]).length,
      ∃ (h1 : w.1.val < m.stored.length) (h2 : w.2.val < (m.stored[w.1.val]).length),
        ((swapRows m.stored)[w.1.val])[w.2.val] = ((m.stored[w.1.val][w.2.val]).2, (m.stored[w.1.val][w.2.val]).1) := by
    rintro ⟨r, i⟩
    have h1 : r.val < m.stored.length := by rw [← hlen]; exact r.isLt
    have h2 : i.val < (m.stored[r.val]).length := by
      have := i.isLt
      simp only [swapRows, List.getElem_map, List.length_map] at this
      exact this
    exact ⟨h1, h2, by simp only [swapRows, List.getElem_map]⟩
  apply runs_of_disjoint _ _ _ _ (fun w a => a = w.1.val * m.cols + (((swapRows m.stored)[w.1.val])[w.2.val]).2)
  · rintro i j a rfl hij
    obtain ⟨a1, a2, a3⟩ := hget i
    obtain ⟨b1, b2, b3⟩ := hget j
    rw [a3, b3] at hij
    have ca := (h _ (List.getElem_mem a1)).1 _ (List.getElem_mem a2)
    have cb := (h _ (List.getElem_mem b1)).1 _ (List.getElem_mem b2)
    have e1 := congrArg (· / m.cols) hij
    have e2 := congrArg (· % m.cols) hij
    beta_reduce at e1 e2
    rw [grid_div ca, grid_div cb] at e1
    rw [grid_mod ca, grid_mod cb] at e2
    obtain ⟨⟨r, hr⟩, ⟨x, hx⟩⟩ := i
    obtain ⟨⟨r', hr'⟩, ⟨x', hx'⟩⟩ := j
    dsimp only at e1 e2 a1 a2 b1 b2
    subst e1
    have hnd := (h _ (List.getElem_mem a1)).2
    have : x = x' := by
      have key := (List.Nodup.getElem_inj_iff hnd (i := x) (j := x') (hi := by simpa using a2) (hj := by simpa using b2)).1
      apply key
      simpa using e2
    subst this
    rfl
  · rintro i a rfl
    obtain ⟨a1, a2, a3⟩ := hget i
    rw [a3]
    exact grid_lt a1 ((h _ (List.getElem_mem a1)).1 _ (List.getElem_mem a2))
  · intro i
    exact ⟨rfl, trivial⟩
  · rintro i a rfl
    obtain ⟨a1, a2, a3⟩ := hget i
    have ca := (h _ (List.getElem_mem a1)).1 _ (List.getElem_mem a2)
    show m.toDense.entry _ _ = Function.update (fun _ : Nat => (0 : R)) _ _ _
    rw [Function.update_self, a3]
    rw [grid_div ca, grid_mod ca]
    simp only [SMat.toDense, List.getElem?_eq_getElem a1, find_nodup (h _ (List.getElem_mem a1)).2 (List.getElem_mem a2)]
  · intro a ha
    show m.toDense.entry _ _ = 0
    unfold SMat.toDense
    dsimp only
    cases hrow : m.stored[a / m.cols]? with
    | none => rfl
    | some row =>
      dsimp only
      cases hf : row.find? (fun p => decide (p.1 = a % m.cols)) with
      | none => rfl
      | some p =>
        exfalso
        obtain ⟨hr, hrow'⟩ := List.getElem?_eq_some_iff.1 hrow
        obtain ⟨i, hi, hpi⟩ := List.getElem_of_mem (List.mem_of_find?_eq_some hf)
        have hp : p.1 = a % m.cols := by simpa using List.find?_some hf
        subst hrow'
        refine ha ⟨⟨a / m.cols, by rw [hlen]; exact hr⟩, ⟨i, by simp only [swapRows, List.getElem_map, List.length_map]; exact hi⟩⟩ ?_
        simp only [swapRows, List.getElem_map, hpi, hp]
        rw [Nat.mul_comm]
        exact (Nat.div_add_mod a m.cols).symm

end Verif.Proofs
