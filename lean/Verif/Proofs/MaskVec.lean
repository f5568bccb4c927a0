import Verif.Proofs.Operands

/-! # `mask_to_vector` lists exactly the set bits in increasing order -/

namespace Verif.Proofs
open Verif Verif.Spec Verif.Model
attribute [-simp] BitVec.getLsbD_eq_getElem

theorem ctz_spec {m : U64} (h : m ≠ 0) :
    ctz m < 64 ∧ m.getLsbD (ctz m) = true ∧ ∀ i, i < ctz m → m.getLsbD i = false := by
  have hex : ∃ i, i < 64 ∧ m.getLsbD i = true := by
    by_contra hn
    apply h
    apply U64.ext
    intro i hi
    cases hm : m.getLsbD i with
    | false => simp
    | true => exact absurd ⟨i, hi, hm⟩ hn
  obtain ⟨i, hi, him⟩ := hex
  have hlt : ctz m < (List.range 64).length := by
    unfold ctz
    rw [List.findIdx_lt_length]
    exact ⟨i, by simpa using hi, him⟩
  refine ⟨by simpa using hlt, ?_, ?_⟩
  · have := List.findIdx_getElem (w := hlt)
    have e : (List.range 64)[ctz m]'hlt = ctz m := List.getElem_range _
    exact e ▸ this
  · intro k hk
    have := List.not_of_lt_findIdx (p := fun i => m.getLsbD i) (xs := List.range 64) hk
    simpa using this

theorem getLsbD_clear_lowest {m : U64} (h : m ≠ 0) (i : Nat) :
    (m &&& (m - 1)).getLsbD i = (m.getLsbD i && decide (i ≠ ctz m)) := by
  obtain ⟨h1, h2, h3⟩ := ctz_spec h
  generalize hp : ctz m = p at *
  have hlow : m.toNat % 2 ^ p = 0 := by
    apply Nat.eq_of_testBit_eq
    intro k
    rw [Nat.testBit_mod_two_pow, BitVec.testBit_toNat]
    by_cases hk : k < p
    · simp [h3 k hk]
    · simp [hk]
  have hodd : (m.toNat / 2 ^ p) % 2 = 1 := by
    have : m.toNat.testBit p = true := by rw [BitVec.testBit_toNat]; exact h2
    rw [Nat.testBit_eq_decide_div_mod_eq] at this
    simpa using this
  obtain ⟨k, hk⟩ : ∃ k, m.toNat / 2 ^ p = 2 * k + 1 := ⟨m.toNat / 2 ^ p / 2, by omega⟩
  have hm : m.toNat = 2 ^ p * (2 * k + 1) + 0 := by
    have := Nat.div_add_mod m.toNat (2 ^ p)
    rw [hk, hlow] at this
    omega
  have hpos : 0 < 2 ^ p := Nat.two_pow_pos p
  have hm1 : (m - 1).toNat = 2 ^ p * (2 * k) + (2 ^ p - 1) := by
    rw [BitVec.toNat_sub]
    have := m.isLt
    have e : (1 : U64).toNat = 1 := rfl
    rw [e, hm]
    rw [hm] at this
    have e3 : 2 ^ p * (2 * k + 1) + 0 = 2 ^ p * (2 * k) + 2 ^ p := by ring
    rw [e3] at this ⊢
    generalize 2 ^ p * (2 * k) = a at *
    omega
  rw [BitVec.getLsbD_and, ← BitVec.testBit_toNat, ← BitVec.testBit_toNat, hm1, hm,
    Nat.testBit_two_pow_mul_add _ (by omega), Nat.testBit_two_pow_mul_add _ (by omega)]
  by_cases hi : i < p
  · simp [hi]
  · simp only [hi, if_false]
    by_cases hip : i = p
    · subst hip; simp
    · obtain ⟨d, hd⟩ : ∃ d, i - p = d + 1 := ⟨i - p - 1, by omega⟩
      rw [hd, Nat.testBit_succ, Nat.testBit_succ]
      have : (2 * k + 1) / 2 = k := by omega
      have e2 : 2 * k / 2 = k := by omega
      rw [this, e2]
      simp [hip]

theorem maskToVector_spec (m : U64) :
    (∀ i, i ∈ maskToVector m ↔ m.getLsbD i = true) ∧ (maskToVector m).Pairwise (· < ·) := by
  induction m using maskToVector.induct with
  | case1 =>
    unfold maskToVector
    simp
  | case2 m h ih =>
    obtain ⟨h1, h2, h3⟩ := ctz_spec h
    rw [maskToVector, dif_neg h]
    constructor
    · intro i
      rw [List.mem_cons, ih.1, getLsbD_clear_lowest h]
      by_cases hi : i = ctz m
      · subst hi; simp [h2]
      · simp [hi]
    · rw [List.pairwise_cons]
      refine ⟨?_, ih.2⟩
      intro i hi
      rw [ih.1, getLsbD_clear_lowest h] at hi
      by_contra hlt
      by_cases he : i = ctz m
      · simp [he] at hi
      · have := h3 i (by omega)
        simp [this] at hi

/-- two strictly increasing lists with the same members are equal -/
theorem sorted_ext {a b : List Nat} (ha : a.Pairwise (· < ·)) (hb : b.Pairwise (· < ·))
    (h : ∀ i, i ∈ a ↔ i ∈ b) : a = b := by
  have hp : a.Perm b := (List.perm_ext_iff_of_nodup (ha.imp (fun h => Nat.ne_of_lt h))
    (hb.imp (fun h => Nat.ne_of_lt h))).2 h
  exact List.Perm.eq_of_pairwise (le := (· < ·)) (fun _ _ _ _ h1 h2 => absurd h1 (by omega)) ha hb hp

theorem maskToVector_eq {ts : List Nat} {m : U64} (hn : ts.Nodup) (h : ∀ i, m.getLsbD i = decide (i ∈ ts)) :
    maskToVector m = sortQ ts := by
  obtain ⟨h1, h2⟩ := maskToVector_spec m
  apply sorted_ext h2 (sortQ_pairwise hn)
  intro i
  rw [h1, h, mem_sortQ]; simp

/-- `target_qubit_list()` -/
theorem target_list {ts cs vs : List Nat} {o : Operands} (hmk : mkOperands ts cs vs = .ok o) :
    maskToVector o.t = sortQ ts := by
  obtain ⟨tn, -, -, -, -, -, -, tb, -, -⟩ := mkOperands_ok hmk
  exact maskToVector_eq tn tb

/-- `control_qubit_list()` -/
theorem control_list {ts cs vs : List Nat} {o : Operands} (hmk : mkOperands ts cs vs = .ok o) :
    maskToVector o.c = sortQ cs := by
  obtain ⟨-, -, cn, -, -, -, -, -, cb, -⟩ := mkOperands_ok hmk
  exact maskToVector_eq cn cb

/-- `control_value_list()` pairs every control qubit with its value -/
theorem control_value_list {ts cs vs : List Nat} {o : Operands} (hmk : mkOperands ts cs vs = .ok o) :
    ((maskToVector o.c).zip (maskToVector2 o.c o.v)).Perm (cs.zip (effectiveValues cs vs)) := by
  obtain ⟨-, -, cn, -, -, hl, hv, -, cb, vb⟩ := mkOperands_ok hmk
  have e : (maskToVector o.c).zip (maskToVector2 o.c o.v) =
      (maskToVector o.c).map (fun i => (i, ((o.v >>> i) &&& 1#64).toNat)) := by
    unfold maskToVector2
    rw [List.zip_map_right, ]
    induction maskToVector o.c with
    | nil => rfl
    | cons a l ih => rw [List.zip_cons_cons, List.map_cons, List.map_cons, ih]; rfl
  rw [e, control_list hmk]
  have hz : cs.zip (effectiveValues cs vs) = cs.map (fun i => (i, ((o.v >>> i) &&& 1#64).toNat)) := by
    apply List.ext_getElem
    · simp [hl]
    · intro k h1 h2
      have hk : k < cs.length := by simpa using h2
      have hk' : k < (effectiveValues cs vs).length := by omega
      rw [List.getElem_zip, List.getElem_map, shr_and_one_toNat, vb]
      congr 1
      have hm : (cs[k], (effectiveValues cs vs)[k]) ∈ cs.zip (effectiveValues cs vs) := by
        rw [List.mem_iff_getElem]
        exact ⟨k, by simp; omega, by simp⟩
      by_cases h1' : (cs[k], 1) ∈ cs.zip (effectiveValues cs vs)
      · rw [zip_nodup_unique cn hm h1']; simp [h1']
      · rcases hv _ (List.getElem_mem hk') with h0 | h0
        · rw [h0]; simp [h1']
        · rw [h0] at hm; exact absurd hm h1'
  rw [hz]
  exact (sortQ_perm cs).map _

end Verif.Proofs
