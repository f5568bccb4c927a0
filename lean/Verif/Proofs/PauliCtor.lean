import Verif.Proofs.Pauli

/-! # Construction of Pauli operators and Pauli gates -/

namespace Verif.Proofs
open Verif Verif.Spec Verif.Model
attribute [-simp] BitVec.getLsbD_eq_getElem

/-- the letters named by qubit/id pairs -/
def toStr (l : List (Nat × Nat)) : List (Nat × Pauli1) := l.map (fun a => (a.1, pauliOfId a.2))

theorem pauliOfId_ne {id : Nat} : pauliOfId id ≠ .I ↔ id ≠ 0 := by
  match id with
  | 0 => simp [pauliOfId]
  | 1 => simp [pauliOfId]
  | 2 => simp [pauliOfId]
  | n + 3 => simp [pauliOfId]

/-- bit test used by the code -/
theorem shr_test (m : U64) (q : Nat) : ((m >>> q) &&& 1#64 ≠ 0) ↔ m.getLsbD q = true := by
  have h := shr_and_one_toNat m q
  constructor
  · intro hne
    by_contra hb
    apply hne
    apply BitVec.eq_of_toNat_eq
    rw [h]; simp [Bool.not_eq_true _ ▸ hb]
  · intro hb e
    rw [e, hb] at h
    simp at h

/-- one call of `add_single_pauli` -/
theorem addSingle_eq (p : PauliOp) (q id : Nat) :
    p.addSingle q id =
      if q ≥ 64 then .error (.throw "PauliOperator::add_single_pauli: target_qubit is too large")
      else if id ≥ 4 then .error (.throw "PauliOperator::add_single_pauli: pauli_id is invalid")
      else if p.x.getLsbD q = true ∨ p.z.getLsbD q = true then
        .error (.throw "PauliOperator::add_single_pauli: You cannot add single pauli twice for same qubit.")
      else .ok ⟨p.coef, addBit p.x q (hasX (pauliOfId id)), addBit p.z q (hasZ (pauliOfId id))⟩ := by
  unfold PauliOp.addSingle
  split
  · rfl
  · rename_i hq
    split
    · rfl
    · rename_i hid
      have e : (((p.x ||| p.z) >>> q) &&& 1#64 ≠ 0) ↔ (p.x.getLsbD q = true ∨ p.z.getLsbD q = true) := by
        rw [shr_test, BitVec.getLsbD_or, Bool.or_eq_true]
      by_cases hb : p.x.getLsbD q = true ∨ p.z.getLsbD q = true
      · rw [if_pos (e.2 hb), if_pos hb]
      · rw [if_neg (fun hh => hb (e.1 hh)), if_neg hb]
        have hs : shl1 q = .ok (1#64 <<< q) := by unfold shl1; rw [if_pos (by omega)]
        rw [hs, ok_bind]
        have : id = 0 ∨ id = 1 ∨ id = 2 ∨ id = 3 := by omega
        rcases this with rfl | rfl | rfl | rfl <;> rfl

/-- the pairs that the constructors accept: ids of Paulis, and non-identity ones on distinct qubits below 64 -/
structure PairsOK (l : List (Nat × Nat)) : Prop where
  id : ∀ a ∈ l, a.2 < 4
  lt : ∀ a ∈ l, a.2 ≠ 0 → a.1 < 64
  distinct : l.Pairwise (fun a b => a.2 = 0 ∨ b.2 = 0 ∨ a.1 ≠ b.1)

theorem PairsOK.str {l : List (Nat × Nat)} (h : PairsOK l) : StrOK (toStr l) := by
  constructor
  · unfold toStr
    rw [List.pairwise_map]
    refine h.distinct.imp ?_
    rintro a b (e | e | e)
    · left; simp [e, pauliOfId]
    · right; left; simp [e, pauliOfId]
    · right; right; exact e
  · intro a ha hne
    unfold toStr at ha
    rw [List.mem_map] at ha
    obtain ⟨b, hb, rfl⟩ := ha
    exact h.lt b hb (pauliOfId_ne.1 hne)

/-- what the constructor loop builds, and when it accepts -/
theorem addAll_spec (p : PauliOp) (l : List (Nat × Nat)) :
    (∀ p', p.addAll l = .ok p' → PairsOK l ∧ p'.coef = p.coef ∧
      (∀ a ∈ l, a.2 ≠ 0 → p.x.getLsbD a.1 = false ∧ p.z.getLsbD a.1 = false) ∧
      (∀ i, p'.x.getLsbD i = (p.x.getLsbD i || (toStr l).any (fun a => hasX a.2 && decide (a.1 = i)))) ∧
      (∀ i, p'.z.getLsbD i = (p.z.getLsbD i || (toStr l).any (fun a => hasZ a.2 && decide (a.1 = i))))) ∧
    (PairsOK l → (∀ a ∈ l, a.2 ≠ 0 → p.x.getLsbD a.1 = false ∧ p.z.getLsbD a.1 = false) →
      ∃ p', p.addAll l = .ok p') ∧
    (∀ e, p.addAll l = .error e → ∃ msg, e = .throw msg) := by
  induction l generalizing p with
  | nil =>
    refine ⟨?_, fun _ _ => ⟨p, rfl⟩, ?_⟩
    · intro p' h
      cases h
      exact ⟨⟨by simp, by simp, by simp⟩, rfl, by simp, by simp [toStr], by simp [toStr]⟩
    · intro e h; cases h
  | cons a l ih =>
    obtain ⟨q, id⟩ := a
    unfold PauliOp.addAll
    by_cases h0 : id = 0
    · subst h0
      simp only [ne_eq, not_true_eq_false, if_false]
      obtain ⟨i1, i2, i3⟩ := ih p
      refine ⟨?_, ?_, i3⟩
      · intro p' h
        obtain ⟨k1, k2, k3, k4, k5⟩ := i1 p' h
        refine ⟨⟨?_, ?_, ?_⟩, k2, ?_, ?_, ?_⟩
        · rintro b hb
          rcases List.mem_cons.1 hb with rfl | hb
          · simp
          · exact k1.id b hb
        · rintro b hb
          rcases List.mem_cons.1 hb with rfl | hb
          · simp
          · exact k1.lt b hb
        · rw [List.pairwise_cons]
          exact ⟨fun b _ => .inl rfl, k1.distinct⟩
        · rintro b hb
          rcases List.mem_cons.1 hb with rfl | hb
          · simp
          · exact k3 b hb
        · intro i; rw [k4 i]; simp [toStr, pauliOfId, hasX]
        · intro i; rw [k5 i]; simp [toStr, pauliOfId, hasZ]
      · intro hl hfree
        exact i2 ⟨fun b hb => hl.id b (by simp [hb]), fun b hb => hl.lt b (by simp [hb]),
          (List.pairwise_cons.1 hl.distinct).2⟩ (fun b hb => hfree b (by simp [hb]))
    · simp only [ne_eq, h0, not_false_eq_true, if_true]
      rw [addSingle_eq]
      by_cases hq : q ≥ 64
      · rw [if_pos hq]
        refine ⟨fun p' h => (by cases h), fun hl => ?_, fun e h => ?_⟩
        · have := hl.lt (q, id) (by simp) h0; simp at this; omega
        · cases h; exact ⟨_, rfl⟩
      · rw [if_neg hq]
        by_cases hid : id ≥ 4
        · rw [if_pos hid]
          refine ⟨fun p' h => (by cases h), fun hl => ?_, fun e h => ?_⟩
          · have := hl.id (q, id) (by simp); simp at this; omega
          · cases h; exact ⟨_, rfl⟩
        · rw [if_neg hid]
          by_cases hb : p.x.getLsbD q = true ∨ p.z.getLsbD q = true
          · rw [if_pos hb]
            refine ⟨fun p' h => (by cases h), fun hl hf => ?_, fun e h => ?_⟩
            · have := hf (q, id) (by simp) h0
              simp [this.1, this.2] at hb
            · cases h; exact ⟨_, rfl⟩
          · rw [if_neg hb, ok_bind]
            have hq' : q < 64 := by omega
            push Not at hb
            have hbx : p.x.getLsbD q = false := by simpa using hb.1
            have hbz : p.z.getLsbD q = false := by simpa using hb.2
            have hany : hasX (pauliOfId id) = true ∨ hasZ (pauliOfId id) = true := by
              have : id = 1 ∨ id = 2 ∨ id = 3 := by omega
              rcases this with rfl | rfl | rfl <;> simp [pauliOfId, hasX, hasZ]
            obtain ⟨i1, i2, i3⟩ := ih
              ⟨p.coef, addBit p.x q (hasX (pauliOfId id)), addBit p.z q (hasZ (pauliOfId id))⟩
            refine ⟨?_, ?_, i3⟩
            · intro p' h
              obtain ⟨k1, k2, k3, k4, k5⟩ := i1 p' h
              simp only at k3 k4 k5
              have hne : ∀ b ∈ l, b.2 ≠ 0 → b.1 ≠ q := by
                intro b hb' hb0 e
                have := k3 b hb' hb0
                rw [getLsbD_addBit _ hq', getLsbD_addBit _ hq', e] at this
                rcases hany with hh | hh <;> simp [hh] at this
              refine ⟨⟨?_, ?_, ?_⟩, k2, ?_, ?_, ?_⟩
              · rintro b hb
                rcases List.mem_cons.1 hb with rfl | hb
                · simp; omega
                · exact k1.id b hb
              · rintro b hb
                rcases List.mem_cons.1 hb with rfl | hb
                · intro _; exact hq'
                · exact k1.lt b hb
              · rw [List.pairwise_cons]
                refine ⟨fun b hb => ?_, k1.distinct⟩
                by_cases hb0 : b.2 = 0
                · exact .inr (.inl hb0)
                · exact .inr (.inr (fun e => hne b hb hb0 e.symm))
              · rintro b hb hb0
                rcases List.mem_cons.1 hb with rfl | hb
                · exact ⟨hbx, hbz⟩
                · have h3 := k3 b hb hb0
                  rw [getLsbD_addBit _ hq', getLsbD_addBit _ hq'] at h3
                  simp only [Bool.or_eq_false_iff] at h3
                  exact ⟨h3.1.1, h3.2.1⟩
              · intro i; rw [k4 i, getLsbD_addBit _ hq']
                simp only [toStr, List.map_cons, List.any_cons, Bool.or_assoc, eq_comm (a := i)]
              · intro i; rw [k5 i, getLsbD_addBit _ hq']
                simp only [toStr, List.map_cons, List.any_cons, Bool.or_assoc, eq_comm (a := i)]
            · intro hl hfree
              apply i2 ⟨fun b hb => hl.id b (by simp [hb]), fun b hb => hl.lt b (by simp [hb]),
                (List.pairwise_cons.1 hl.distinct).2⟩
              intro b hb hb0
              have h1 := hfree b (by simp [hb]) hb0
              have h2 : q ≠ b.1 := by
                rcases (List.pairwise_cons.1 hl.distinct).1 b hb with e | e | e
                · exact absurd e h0
                · exact absurd e hb0
                · exact e
              rw [getLsbD_addBit _ hq', getLsbD_addBit _ hq']
              simp [h1.1, h1.2, h2.symm]

theorem addAll_zero {c : ℂ} {l : List (Nat × Nat)} {p : PauliOp} (h : PauliOp.addAll ⟨c, 0, 0⟩ l = .ok p) :
    PairsOK l ∧ p = ⟨c, xMask (toStr l), zMask (toStr l)⟩ := by
  obtain ⟨k1, k2, -, k4, k5⟩ := (addAll_spec ⟨c, 0, 0⟩ l).1 p h
  refine ⟨k1, ?_⟩
  obtain ⟨pc, px, pz⟩ := p
  simp only at k2 k4 k5
  have e1 : px = xMask (toStr l) := by
    apply U64.ext; intro i _
    rw [k4, getLsbD_xMask k1.str]; simp
  have e2 : pz = zMask (toStr l) := by
    apply U64.ext; intro i _
    rw [k5, getLsbD_zMask k1.str]; simp
  rw [k2, e1, e2]

/-- the constructor from lists accepts exactly the well-formed descriptions -/
theorem ofLists_ok_iff (ts ids : List Nat) (coef : ℂ) :
    (∃ p, PauliOp.ofLists ts ids coef = .ok p) ↔ ts.length = ids.length ∧ PairsOK (ts.zip ids) := by
  unfold PauliOp.ofLists
  by_cases h : ts.length = ids.length
  · rw [if_neg (by simp [h])]
    constructor
    · rintro ⟨p, hp⟩; exact ⟨h, (addAll_zero hp).1⟩
    · rintro ⟨-, hl⟩
      exact (addAll_spec ⟨coef, 0, 0⟩ _).2.1 hl (by simp)
  · rw [if_pos h]
    constructor
    · rintro ⟨p, hp⟩; cases hp
    · rintro ⟨e, -⟩; exact absurd e h

/-- rejection is always an exception, never undefined behaviour -/
theorem ofLists_error {ts ids : List Nat} {coef : ℂ} {e : Fault} (h : PauliOp.ofLists ts ids coef = .error e) :
    ∃ msg, e = .throw msg := by
  unfold PauliOp.ofLists at h
  split at h
  · cases h; exact ⟨_, rfl⟩
  · exact (addAll_spec _ _).2.2 e h

theorem ofLists_eq {ts ids : List Nat} {coef : ℂ} {p : PauliOp} (h : PauliOp.ofLists ts ids coef = .ok p) :
    PairsOK (ts.zip ids) ∧ p = ⟨coef, xMask (toStr (ts.zip ids)), zMask (toStr (ts.zip ids))⟩ := by
  unfold PauliOp.ofLists at h
  split at h
  · cases h
  · exact addAll_zero h

/-! ## every pair of masks is a string -/

/-- the letters of a Pauli operator with masks `x`, `z`, one per qubit -/
def lettersOf (x z : U64) : List (Nat × Pauli1) :=
  (List.range 64).map (fun q => (q, letter (x.getLsbD q) (z.getLsbD q)))

theorem lettersOf_ok (x z : U64) : StrOK (lettersOf x z) := by
  constructor
  · unfold lettersOf
    rw [List.pairwise_map]
    exact (List.nodup_range (n := 64)).imp (fun h => .inr (.inr h))
  · intro a ha _
    unfold lettersOf at ha
    rw [List.mem_map] at ha
    obtain ⟨q, hq, rfl⟩ := ha
    exact List.mem_range.1 hq

theorem hasX_letter (a b : Bool) : hasX (letter a b) = a := by cases a <;> cases b <;> rfl
theorem hasZ_letter (a b : Bool) : hasZ (letter a b) = b := by cases a <;> cases b <;> rfl

theorem xMask_lettersOf (x z : U64) : xMask (lettersOf x z) = x := by
  apply U64.ext; intro i hi
  rw [getLsbD_xMask (lettersOf_ok x z), Bool.eq_iff_iff, List.any_eq_true]
  constructor
  · rintro ⟨a, ha, hh⟩
    unfold lettersOf at ha
    rw [List.mem_map] at ha
    obtain ⟨q, hq, rfl⟩ := ha
    simp only [hasX_letter, Bool.and_eq_true, decide_eq_true_eq] at hh
    rw [← hh.2]; exact hh.1
  · intro hx
    refine ⟨(i, letter (x.getLsbD i) (z.getLsbD i)), ?_, ?_⟩
    · unfold lettersOf
      exact List.mem_map.2 ⟨i, List.mem_range.2 hi, rfl⟩
    · simp only [hasX_letter]; simp [hx]

theorem zMask_lettersOf (x z : U64) : zMask (lettersOf x z) = z := by
  apply U64.ext; intro i hi
  rw [getLsbD_zMask (lettersOf_ok x z), Bool.eq_iff_iff, List.any_eq_true]
  constructor
  · rintro ⟨a, ha, hh⟩
    unfold lettersOf at ha
    rw [List.mem_map] at ha
    obtain ⟨q, hq, rfl⟩ := ha
    simp only [hasZ_letter, Bool.and_eq_true, decide_eq_true_eq] at hh
    rw [← hh.2]; exact hh.1
  · intro hx
    refine ⟨(i, letter (x.getLsbD i) (z.getLsbD i)), ?_, ?_⟩
    · unfold lettersOf
      exact List.mem_map.2 ⟨i, List.mem_range.2 hi, rfl⟩
    · simp only [hasZ_letter]; simp [hx]

theorem applyPaulis_lettersOf (x z : U64) (ψ : U64 → ℂ) :
    applyPaulis (lettersOf x z) ψ = pauliAct x z ψ := by
  rw [applyPaulis_eq (lettersOf_ok x z), xMask_lettersOf, zMask_lettersOf]

/-! ## gates -/

theorem vectorToMask_maskToVector (m : U64) : vectorToMask (maskToVector m) = .ok m := by
  obtain ⟨h1, h2⟩ := maskToVector_spec m
  have hn : (maskToVector m).Nodup := h2.imp (fun h => Nat.ne_of_lt h)
  have hl : ∀ x ∈ maskToVector m, x < 64 := by
    intro x hx
    rw [h1] at hx
    by_contra hge
    rw [getLsbD_high m (by omega)] at hx; cases hx
  obtain ⟨m', hm'⟩ := (vectorToMask_ok_iff _).2 ⟨hn, hl⟩
  rw [hm']
  congr 1
  apply U64.ext; intro i _
  rw [getLsbD_vectorToMask hm', Bool.eq_iff_iff]
  simp [h1]

/-- the operands of a Pauli gate are those of a gate on the qubits of the Pauli operator -/
theorem mkPauli_ok {p : PauliOp} {cs vs : List Nat} {g : PauliGate} (h : mkPauli p cs vs = .ok g) :
    g.p = p ∧ mkOperands p.targetList cs vs = .ok g.o := by
  unfold mkPauli at h
  obtain ⟨a, ha, h⟩ := bind_ok h
  obtain ⟨c, hc, h⟩ := bind_ok h
  obtain ⟨v, hv, h⟩ := bind_ok h
  obtain ⟨o, ho, h⟩ := bind_ok h
  cases h
  refine ⟨rfl, ?_⟩
  unfold mkOperands PauliOp.targetList
  simp only [ha, hc, hv, vectorToMask_maskToVector, ok_bind, ho]

/-- conditions for the kernels from the bounds of the qubits -/
theorem pauli_flipOK {p : PauliOp} {cs vs : List Nat} {o : Operands} {B n : Nat}
    (h : mkOperands p.targetList cs vs = .ok o) (hb : ∀ q, q ∈ p.targetList ∨ q ∈ cs → q < n)
    (hsize : B * 2 ^ n ≤ 2 ^ 64) : FlipOK B n o.c o.v p.x := by
  have hM := masksOK_of h hb hsize
  obtain ⟨-, -, -, -, -, -, -, tb, -, -⟩ := mkOperands_ok h
  have ht : ∀ i, p.x.getLsbD i = true → o.t.getLsbD i = true := by
    intro i hi
    rw [tb]
    simp only [decide_eq_true_eq]
    unfold PauliOp.targetList
    rw [(maskToVector_spec _).1, BitVec.getLsbD_or, hi]; rfl
  refine ⟨hsize, ?_, ?_, ?_, hM.sub⟩
  · rw [toNat_lt_two_pow_iff]; intro i hi; exact hM.c_high hi
  · rw [toNat_lt_two_pow_iff]; intro i hi
    cases hx : p.x.getLsbD i with
    | false => rfl
    | true => have := ht i hx; rw [hM.t_high hi] at this; cases this
  · intro i
    cases hx : p.x.getLsbD i with
    | false => rfl
    | true =>
      have := hM.disj i
      rw [ht i hx] at this
      exact this

end Verif.Proofs
