import Verif.Model.JsonState
import Verif.Proofs.Json
import Verif.Proofs.OperatorBatched

/-!
# JSON form of operators and states: helper lemmas
-/

namespace Verif.Proofs
open Verif Verif.Spec Verif.Model

attribute [-simp] BitVec.getLsbD_eq_getElem

theorem complexes_back (l : List ℂ) : complexesOfJson (complexesToJson l) = .ok l := by
  show (l.map complexToJson).mapM complexOfJson = .ok l
  rw [List.mapM_map, mapM_all_ok (f := complexOfJson ∘ complexToJson) (g := id) l fun x _ => complex_back x, List.map_id]

theorem getAmplitudes_length (n : Nat) (ψ : U64 → ℂ) : (getAmplitudes n ψ).length = 2 ^ n := by simp [getAmplitudes]

theorem getAmplitudes_get {n : Nat} {ψ : U64 → ℂ} {i : Nat} (h : i < 2 ^ n) : (getAmplitudes n ψ)[i]? = some (ψ (BitVec.ofNat 64 i)) := by
  simp [getAmplitudes, h]

theorem dimOf_ok {n d : Nat} (h : dimOf n = .ok d) : n < 64 ∧ d = 2 ^ n := by
  unfold dimOf at h
  split at h
  · cases h; exact ⟨by assumption, rfl⟩
  · cases h

theorem paulis_back (ts : List PauliOp) : ∃ js, ts.mapM PauliOp.toJson = .ok js ∧ js.mapM PauliOp.ofJson = .ok ts := by
  induction ts with
  | nil => exact ⟨[], rfl, rfl⟩
  | cons p ts ih =>
    obtain ⟨js, h1, h2⟩ := ih
    obtain ⟨j, h3, h4⟩ := pauli_back p
    refine ⟨j :: js, ?_, ?_⟩
    · rw [List.mapM_cons, h3, ok_bind, h1]; rfl
    · rw [List.mapM_cons, h4, ok_bind, h2]; rfl

/-- the operator reader converts every term like the reader of Pauli operators -/
theorem opOfJson_eq (j : Json) : Op.ofJson j = (do
    let terms ← j.at (t! "terms")
    let res ← terms.items.mapM PauliOp.ofJson
    pure (Op.ofTerms res)) := rfl

theorem op_back (o : Op) : ∃ j, o.toJson = .ok j ∧ Op.ofJson j = .ok (Op.ofTerms o.terms) := by
  obtain ⟨js, h1, h2⟩ := paulis_back o.terms
  refine ⟨.obj [(t! "terms", .arr js)], ?_, ?_⟩
  · unfold Op.toJson
    rw [h1]
    rfl
  · rw [opOfJson_eq]
    show (do let res ← js.mapM PauliOp.ofJson; pure (Op.ofTerms res)) = _
    rw [h2]
    rfl

theorem ops_back (l : List Op) : ∃ js, l.mapM Op.toJson = .ok js ∧ js.mapM Op.ofJson = .ok (l.map fun o => Op.ofTerms o.terms) := by
  induction l with
  | nil => exact ⟨[], rfl, rfl⟩
  | cons p ts ih =>
    obtain ⟨js, h1, h2⟩ := ih
    obtain ⟨j, h3, h4⟩ := op_back p
    refine ⟨j :: js, ?_, ?_⟩
    · rw [List.mapM_cons, h3, ok_bind, h1]; rfl
    · rw [List.mapM_cons, h4, ok_bind, h2]; rfl

theorem row_back (m : DMat ℂ) (r : Nat) (hc : m.cols < 2 ^ 31) :
    (do let l ← ((List.range m.cols).map fun c => complexToJson (m.entry r c)).mapM complexOfJson
        if m.cols < l.length then .error (.ub "Eigen: index out of range") else .ok l : Res (List ℂ)) =
      .ok ((List.range m.cols).map fun c => m.entry r c) := by
  rw [List.mapM_map, mapM_all_ok (f := complexOfJson ∘ fun c => complexToJson (m.entry r c)) (g := fun c => m.entry r c) _
    fun x _ => complex_back _, ok_bind, if_neg (by simp)]

theorem matrix_back (m : DMat ℂ) (hr : 0 < m.rows) (hr' : m.rows < 2 ^ 31) (hc : m.cols < 2 ^ 31) :
    matrixOfJson (matrixToJson m) = .ok ⟨m.rows, m.cols, (List.range m.rows).map fun r => (List.range m.cols).map fun c => m.entry r c⟩ := by
  have hf : (matrixToJson m).first = .ok (.arr ((List.range m.cols).map fun c => complexToJson (m.entry 0 c))) := by
    unfold matrixToJson
    obtain ⟨k, hk⟩ := Nat.exists_eq_succ_of_ne_zero (Nat.pos_iff_ne_zero.1 hr)
    rw [hk, List.range_succ_eq_map]
    rfl
  have s0 : (Json.arr ((List.range m.cols).map fun c => complexToJson (m.entry 0 c))).size = m.cols := by simp [Json.size]
  have s1 : (matrixToJson m).size = m.rows := by simp [Json.size, matrixToJson]
  unfold matrixOfJson
  rw [hf, ok_bind, s0, s1, if_neg (by omega)]
  have hi : (matrixToJson m).items = (List.range m.rows).map fun r => Json.arr ((List.range m.cols).map fun c => complexToJson (m.entry r c)) := rfl
  rw [hi, List.mapM_map]
  erw [mapM_all_ok (g := fun r => (List.range m.cols).map fun c => m.entry r c) _ fun x _ => row_back m x hc]
  rfl

end Verif.Proofs
