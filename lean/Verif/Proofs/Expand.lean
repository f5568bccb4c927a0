import Verif.Model.Expand
import Verif.Proofs.GateMatrix

/-! # `get_expanded_matrix` computes the matrix of the controlled operator -/

namespace Verif.Proofs
open Verif Verif.Spec Verif.Model
attribute [-simp] BitVec.getLsbD_eq_getElem

/-! ## sequences of assignments -/

/-- one assignment to a matrix entry -/
def upd {R : Type} (e : Nat → Nat → R) (w : Nat × Nat × R) : Nat → Nat → R := fun r s => if r = w.1 ∧ s = w.2.1 then w.2.2 else e r s

theorem foldlM_set {α R : Type} (step : DMat R → α → Res (DMat R)) (f : α → Nat × Nat × R) (l : List α) (rows cols : Nat)
    (hs : ∀ a ∈ l, ∀ acc : DMat R, acc.rows = rows → acc.cols = cols → step acc a = acc.set (f a).1 (f a).2.1 (f a).2.2)
    (hr : ∀ a ∈ l, (f a).1 < rows ∧ (f a).2.1 < cols) (e : Nat → Nat → R) :
    l.foldlM step (⟨rows, cols, e⟩ : DMat R) = .ok ⟨rows, cols, (l.map f).foldl upd e⟩ := by
  induction l generalizing e with
  | nil => rfl
  | cons a l ih =>
    rw [List.foldlM_cons, hs a (by simp) _ rfl rfl]
    unfold DMat.set
    rw [if_pos (hr a (by simp)), ok_bind]
    dsimp only
    rw [ih (fun b hb => hs b (by simp [hb])) (fun b hb => hr b (by simp [hb]))]
    rfl

theorem foldl_upd_none {R : Type} (l : List (Nat × Nat × R)) (e : Nat → Nat → R) {r s : Nat}
    (h : ∀ w ∈ l, ¬ (w.1 = r ∧ w.2.1 = s)) : l.foldl upd e r s = e r s := by
  induction l generalizing e with
  | nil => rfl
  | cons a l ih =>
    rw [List.foldl_cons, ih _ (fun w hw => h w (by simp [hw]))]
    unfold upd
    rw [if_neg fun hh => h a (by simp) ⟨hh.1.symm, hh.2.symm⟩]

theorem foldl_upd_const {R : Type} (l : List (Nat × Nat × R)) (e : Nat → Nat → R) {r s : Nat} {z : R} (he : e r s = z)
    (h : ∀ w ∈ l, w.1 = r → w.2.1 = s → w.2.2 = z) : l.foldl upd e r s = z := by
  induction l generalizing e with
  | nil => exact he
  | cons a l ih =>
    rw [List.foldl_cons]
    apply ih _ _ (fun w hw => h w (by simp [hw]))
    unfold upd
    split
    · rename_i hh; exact h a (by simp) hh.1.symm hh.2.symm
    · exact he

/-- the last assignment to an entry decides -/
theorem foldl_upd_last {α R : Type} (f : α → Nat × Nat × R) (G : α → Prop) (l : List α) (e : Nat → Nat → R) {r s : Nat} {z : R}
    (hex : ∃ a ∈ l, G a) (hG : ∀ a ∈ l, G a → f a = (r, s, z))
    (h : l.Pairwise fun a b => G a → (f b).1 = r → (f b).2.1 = s → (f b).2.2 = z) : (l.map f).foldl upd e r s = z := by
  induction l generalizing e with
  | nil => obtain ⟨w, hw, -⟩ := hex; simp at hw
  | cons a l ih =>
    rw [List.map_cons, List.foldl_cons]
    rw [List.pairwise_cons] at h
    obtain ⟨w, hw, hwz⟩ := hex
    by_cases ha : G a
    · apply foldl_upd_const
      · rw [hG a (by simp) ha]; unfold upd; rw [if_pos (by simp)]
      · intro w hw h1 h2
        obtain ⟨b, hb, rfl⟩ := List.mem_map.1 hw
        exact h.1 b hb ha h1 h2
    · refine ih _ ⟨w, ?_, hwz⟩ (fun b hb => hG b (by simp [hb])) h.2
      rcases List.mem_cons.1 hw with rfl | hw
      · exact absurd hwz ha
      · exact hw

theorem foldlM_diag {R : Type} [One R] (P : U64 → Prop) [DecidablePred P] (l : List U64) (n : Nat) (hl : ∀ i ∈ l, i.toNat < n)
    (e : Nat → Nat → R) :
    ∃ e', l.foldlM (fun (acc : DMat R) i => if P i then acc.set i.toNat i.toNat 1 else pure acc) (⟨n, n, e⟩ : DMat R) = .ok ⟨n, n, e'⟩ ∧
      (∀ i ∈ l, P i → e' i.toNat i.toNat = 1) ∧ ∀ r s, (∀ i ∈ l, P i → ¬ (r = i.toNat ∧ s = i.toNat)) → e' r s = e r s := by
  induction l generalizing e with
  | nil => exact ⟨e, rfl, fun i hi => by simp at hi, fun _ _ _ => rfl⟩
  | cons a l ih =>
    rw [List.foldlM_cons]
    by_cases hP : P a
    · rw [if_pos hP]
      unfold DMat.set
      rw [if_pos ⟨hl a (by simp), hl a (by simp)⟩, ok_bind]
      obtain ⟨e', h1, h2, h3⟩ := ih (fun i hi => hl i (by simp [hi])) (fun r s => if r = a.toNat ∧ s = a.toNat then 1 else e r s)
      refine ⟨e', h1, ?_, ?_⟩
      · intro i hi hPi
        by_cases hm : ∃ j ∈ l, P j ∧ j.toNat = i.toNat
        · obtain ⟨j, hj, hPj, hji⟩ := hm
          rw [← hji]; exact h2 j hj hPj
        · rw [h3 _ _ (fun j hj hPj hh => hm ⟨j, hj, hPj, hh.1.symm⟩)]
          rcases List.mem_cons.1 hi with rfl | hi
          · rw [if_pos ⟨rfl, rfl⟩]
          · exact absurd ⟨i, hi, hPi, rfl⟩ hm
      · intro r s hrs
        rw [h3 r s (fun i hi => hrs i (by simp [hi])), if_neg (hrs a (by simp) hP)]
    · rw [if_neg hP]
      obtain ⟨e', h1, h2, h3⟩ := ih (fun i hi => hl i (by simp [hi])) e
      refine ⟨e', h1, ?_, fun r s hrs => h3 r s fun i hi => hrs i (by simp [hi])⟩
      intro i hi hPi
      rcases List.mem_cons.1 hi with rfl | hi
      · exact absurd hPi hP
      · exact h2 i hi hPi

/-! ## positions -/

/-- the qubits fit -/
structure OpsOK (ops : List Nat) : Prop where
  sorted : ops.Pairwise (· < ·)
  lt : ∀ q ∈ ops, q < 64
  len : ops.length < 64

theorem OpsOK.targets {ops : List Nat} (h : OpsOK ops) : TargetsOK ops := ⟨h.sorted.imp fun h => Nat.ne_of_lt h, h.lt⟩

theorem isSorted_of {l : List Nat} (h : l.Pairwise (· < ·)) : isSorted l = true := by
  induction l with
  | nil => rfl
  | cons a l ih =>
    rw [List.pairwise_cons] at h
    cases l with
    | nil => rfl
    | cons b l =>
      simp only [isSorted, Bool.and_eq_true, decide_eq_true_eq]
      exact ⟨(h.1 b (by simp)).le, ih h.2⟩

/-- position in the list -/
def posOf (ops : List Nat) (q : Nat) : Nat := ops.findIdx (fun y => decide (¬ y < q))

theorem posOf_get {ops : List Nat} (h : OpsOK ops) {p : Nat} (hp : p < ops.length) : posOf ops ops[p] = p := by
  unfold posOf
  rw [List.findIdx_eq hp]
  refine ⟨by simp, ?_⟩
  intro i hi
  have := List.pairwise_iff_getElem.1 h.sorted i p (by omega) hp hi
  simpa using this

theorem posOf_lt {ops : List Nat} (h : OpsOK ops) {q : Nat} (hq : q ∈ ops) : posOf ops q < ops.length := by
  obtain ⟨p, hp, rfl⟩ := List.getElem_of_mem hq
  rw [posOf_get h hp]; exact hp

theorem get_posOf {ops : List Nat} (h : OpsOK ops) {q : Nat} (hq : q ∈ ops) : ops[posOf ops q]'(posOf_lt h hq) = q := by
  obtain ⟨p, hp, rfl⟩ := List.getElem_of_mem hq
  simp only [posOf_get h hp]

theorem lowerBound_eq {ops : List Nat} (h : OpsOK ops) (q : Nat) : lowerBound ops q = .ok (posOf ops q) := by
  unfold lowerBound
  rw [if_pos (isSorted_of h.sorted)]; rfl

theorem getLsbD_bit (w : U64) (j i : Nat) : ((w >>> j) &&& 1#64).getLsbD i = (decide (i = 0) && w.getLsbD j) := by
  rw [BitVec.getLsbD_and, BitVec.getLsbD_ushiftRight, BitVec.getLsbD_one]
  by_cases hi : i = 0
  · subst hi; simp
  · simp [hi]

theorem getLsbD_bit_shl (w : U64) (j : Nat) {s : Nat} (hs : s < 64) (i : Nat) :
    (((w >>> j) &&& 1#64) <<< s).getLsbD i = (decide (i = s) && w.getLsbD j) := by
  rw [BitVec.getLsbD_shiftLeft, getLsbD_bit]
  by_cases hi : i = s
  · subst hi; simp [hs]
  · by_cases h2 : i < s
    · simp [hi, h2]
    · have : i - s ≠ 0 := by omega
      simp [hi, this]

theorem expandIndex_bits (i : U64) (tms : List Nat) (htm : ∀ x ∈ tms, x < 64) (j : Nat) (acc : U64) :
    ∃ w, expandIndex i tms j acc = .ok w ∧
      ∀ p, w.getLsbD p = true ↔ acc.getLsbD p = true ∨ ∃ k, tms[k]? = some p ∧ i.getLsbD (j + k) = true := by
  induction tms generalizing j acc with
  | nil => exact ⟨acc, rfl, fun p => by simp⟩
  | cons t tms ih =>
    obtain ⟨w, h1, h2⟩ := ih (fun x hx => htm x (by simp [hx])) (j + 1) (acc ||| ((i >>> j) &&& 1#64) <<< t)
    refine ⟨w, ?_, ?_⟩
    · unfold expandIndex shlW
      rw [if_pos (htm t (by simp)), ok_bind]
      exact h1
    · intro p
      rw [h2, BitVec.getLsbD_or, getLsbD_bit_shl _ _ (htm t (by simp)), Bool.or_eq_true, Bool.and_eq_true, decide_eq_true_eq]
      constructor
      · rintro ((h | ⟨rfl, h⟩) | ⟨k, hk, h⟩)
        · exact .inl h
        · exact .inr ⟨0, by simp, h⟩
        · exact .inr ⟨k + 1, by simpa using hk, by rw [← h]; congr 1; omega⟩
      · rintro (h | ⟨k, hk, h⟩)
        · exact .inl (.inl h)
        · cases k with
          | zero => exact .inl (.inr ⟨by simpa using hk.symm, h⟩)
          | succ k => exact .inr ⟨k, by simpa using hk, by rw [← h]; congr 1; omega⟩

theorem toNat_testBit (w : U64) (p : Nat) : w.toNat.testBit p = w.getLsbD p := rfl

/-- a word is the collection of the bits of another one -/
theorem toNat_eq_getBits {ops : List Nat} (w b : U64)
    (h : ∀ p, w.getLsbD p = true ↔ ∃ q, ops[p]? = some q ∧ b.getLsbD q = true) : w.toNat = getBits b ops := by
  apply Nat.eq_of_testBit_eq
  intro p
  rw [toNat_testBit, testBit_getBits, Bool.eq_iff_iff, h]
  cases ops[p]? with
  | none => simp
  | some q => simp

theorem expandIndex_eq {ops ts : List Nat} (h : OpsOK ops) (ht : ts.Nodup) (hsub : ∀ q ∈ ts, q ∈ ops) (i : U64) :
    ∃ w, expandIndex i (ts.map (posOf ops)) 0 0 = .ok w ∧ w.toNat = getBits (putBits 0 ts i.toNat) ops := by
  have hT : TargetsOK ts := ⟨ht, fun q hq => h.lt q (hsub q hq)⟩
  obtain ⟨w, h1, h2⟩ := expandIndex_bits i (ts.map (posOf ops)) (by
    intro x hx
    obtain ⟨q, hq, rfl⟩ := List.mem_map.1 hx
    have := posOf_lt h (hsub q hq)
    have := h.len
    omega) 0 0
  refine ⟨w, h1, toNat_eq_getBits _ _ ?_⟩
  intro p
  rw [h2]
  constructor
  · rintro (hz | ⟨k, hk, hb⟩)
    · simp at hz
    · rw [List.getElem?_map, Option.map_eq_some_iff] at hk
      obtain ⟨q, hq, rfl⟩ := hk
      obtain ⟨hkl, rfl⟩ := List.getElem?_eq_some_iff.1 hq
      have hm := hsub _ (List.getElem_mem hkl)
      refine ⟨ts[k], ?_, ?_⟩
      · rw [List.getElem?_eq_getElem (posOf_lt h hm), get_posOf h hm]
      · rw [getLsbD_putBits_get 0 hT.nodup hT.lt _ hkl, toNat_testBit]
        simpa using hb
  · rintro ⟨q, hq, hb⟩
    obtain ⟨hpl, rfl⟩ := List.getElem?_eq_some_iff.1 hq
    by_cases hm : ops[p] ∈ ts
    · obtain ⟨k, hk, hkq⟩ := List.getElem_of_mem hm
      rw [← hkq, getLsbD_putBits_get 0 hT.nodup hT.lt _ hk, toNat_testBit] at hb
      refine .inr ⟨k, ?_, by simpa using hb⟩
      rw [List.getElem?_map, List.getElem?_eq_getElem hk, Option.map_some, hkq, posOf_get h hpl]
    · rw [getLsbD_putBits_notMem 0 hT.lt _ hm] at hb
      simp at hb

theorem expandControls_bits {ops : List Nat} (h : OpsOK ops) (cv : U64) (qs : List Nat) (hq : ∀ q ∈ qs, q ∈ ops) (acc : U64 × U64) :
    ∃ c, expandControls ops cv qs acc = .ok c ∧
      (∀ p, c.1.getLsbD p = true ↔ acc.1.getLsbD p = true ∨ ∃ q ∈ qs, ops[p]? = some q) ∧
      (∀ p, c.2.getLsbD p = true ↔ acc.2.getLsbD p = true ∨ ∃ q ∈ qs, ops[p]? = some q ∧ cv.getLsbD q = true) := by
  induction qs generalizing acc with
  | nil => exact ⟨acc, rfl, fun p => by simp, fun p => by simp⟩
  | cons q qs ih =>
    have hm := hq q (by simp)
    have hp := posOf_lt h hm
    have h64 : posOf ops q < 64 := by have := h.len; omega
    obtain ⟨c, h1, h2, h3⟩ := ih (fun x hx => hq x (by simp [hx]))
      (acc.1 ||| 1#64 <<< posOf ops q, acc.2 ||| ((cv >>> q) &&& 1#64) <<< posOf ops q)
    have key : ∀ p, p = posOf ops q ↔ ops[p]? = some q := by
      intro p
      constructor
      · rintro rfl
        rw [List.getElem?_eq_getElem hp, get_posOf h hm]
      · intro he
        obtain ⟨hpl, he⟩ := List.getElem?_eq_some_iff.1 he
        rw [← he, posOf_get h hpl]
    refine ⟨c, ?_, ?_, ?_⟩
    · unfold expandControls shlW
      rw [lowerBound_eq h, ok_bind, shl1_ok h64, ok_bind, if_pos h64, ok_bind]
      exact h1
    · intro p
      rw [h2, BitVec.getLsbD_or, getLsbD_one_shl h64, Bool.or_eq_true, decide_eq_true_eq, key]
      simp only [List.mem_cons, exists_eq_or_imp]
      tauto
    · intro p
      rw [h3, BitVec.getLsbD_or, getLsbD_bit_shl _ _ h64, Bool.or_eq_true, Bool.and_eq_true, decide_eq_true_eq, key]
      simp only [List.mem_cons, exists_eq_or_imp]
      tauto

theorem expandControls_eq {ops : List Nat} (h : OpsOK ops) (cm cv : U64) (hq : ∀ q, cm.getLsbD q = true → q ∈ ops) :
    ∃ c, expandControls ops cv (maskToVector cm) (0, 0) = .ok c ∧ c.1.toNat = getBits cm ops ∧ c.2.toNat = getBits (cv &&& cm) ops := by
  obtain ⟨c, h1, h2, h3⟩ := expandControls_bits h cv (maskToVector cm) (fun q hm => hq q (mem_maskToVector.1 hm)) (0, 0)
  have hz : ∀ p, (0 : U64).getLsbD p = false := fun p => BitVec.getLsbD_zero
  refine ⟨c, h1, toNat_eq_getBits _ _ fun p => ?_, toNat_eq_getBits _ _ fun p => ?_⟩
  · rw [h2, hz]
    simp only [mem_maskToVector, Bool.false_eq_true, false_or]
    exact ⟨fun ⟨q, a, b⟩ => ⟨q, b, a⟩, fun ⟨q, a, b⟩ => ⟨q, b, a⟩⟩
  · rw [h3, hz]
    simp only [mem_maskToVector, Bool.false_eq_true, false_or, BitVec.getLsbD_and, Bool.and_eq_true]
    exact ⟨fun ⟨q, a, b, c⟩ => ⟨q, b, c, a⟩, fun ⟨q, a, b, c⟩ => ⟨q, c, a, b⟩⟩

/-! ## the whole function -/

theorem getBits_or (a b : U64) (qs : List Nat) : getBits (a ||| b) qs = getBits a qs ||| getBits b qs := by
  apply Nat.eq_of_testBit_eq
  intro k
  rw [Nat.testBit_or, testBit_getBits, testBit_getBits, testBit_getBits]
  cases qs[k]? with
  | none => rfl
  | some q => exact BitVec.getLsbD_or

theorem getBits_inj {a b : U64} {qs : List Nat} : getBits a qs = getBits b qs ↔ ∀ q ∈ qs, a.getLsbD q = b.getLsbD q := by
  constructor
  · intro h q hq
    obtain ⟨k, hk, rfl⟩ := List.getElem_of_mem hq
    have := congrArg (fun x => x.testBit k) h
    simp only [testBit_getBits, List.getElem?_eq_getElem hk] at this
    exact this
  · exact getBits_congr

theorem mem_words {N : Nat} (hN : N ≤ 2 ^ 64) {i : U64} : i ∈ words N ↔ i.toNat < N := by
  unfold words
  rw [List.mem_map]
  constructor
  · rintro ⟨k, hk, rfl⟩
    rw [BitVec.toNat_ofNat, Nat.mod_eq_of_lt (by have := List.mem_range.1 hk; omega)]
    exact List.mem_range.1 hk
  · intro h
    exact ⟨i.toNat, List.mem_range.2 h, by simp⟩

/-- arguments for which the function is used: the enclosing list is increasing and contains all qubits -/
structure ExpandOK {R : Type} (m : DMat R) (ts : List Nat) (cm : U64) (ops : List Nat) : Prop where
  enc : OpsOK ops
  nodup : ts.Nodup
  sub : ∀ q ∈ ts, q ∈ ops
  csub : ∀ q, cm.getLsbD q = true → q ∈ ops
  disj : ∀ q ∈ ts, cm.getLsbD q = false
  rows : m.rows = 2 ^ ts.length
  cols : m.cols = 2 ^ ts.length

theorem ExpandOK.length {R : Type} {m : DMat R} {ts : List Nat} {cm : U64} {ops : List Nat} (h : ExpandOK m ts cm ops) :
    ts.length + popcount cm ≤ ops.length := by
  rw [← length_maskToVector, ← List.length_append]
  apply List.Subperm.length_le
  apply List.subperm_of_subset
  · rw [List.nodup_append]
    refine ⟨h.nodup, maskToVector_nodup cm, ?_⟩
    rintro a ha b hb rfl
    have := h.disj a ha
    rw [mem_maskToVector.1 hb] at this
    cases this
  · intro q hq
    rcases List.mem_append.1 hq with hq | hq
    · exact h.sub q hq
    · exact h.csub q (mem_maskToVector.1 hq)

theorem le_of_testBit {a b : Nat} (h : ∀ k, a.testBit k = true → b.testBit k = true) : a ≤ b := by
  have : a ||| b = b := by
    apply Nat.eq_of_testBit_eq
    intro k
    rw [Nat.testBit_or]
    have := h k
    cases ha : a.testBit k <;> simp_all
  rw [← this]; exact Nat.left_le_or

theorem expand_spec {R : Type} [Zero R] [One R] {m : DMat R} {ts : List Nat} {cm : U64} {ops : List Nat} (h : ExpandOK m ts cm ops) (cv : U64) :
    ∃ e, getExpandedMatrix m ts cm cv ops = .ok ⟨2 ^ ops.length, 2 ^ ops.length, e⟩ ∧ ∀ w w' : U64,
      e (getBits w ops) (getBits w' ops) =
        if w &&& cm = cv &&& cm then
          (if ∀ q ∈ ops, q ∉ ts → w.getLsbD q = w'.getLsbD q then m.entry (getBits w ts) (getBits w' ts) else 0)
        else (if getBits w ops = getBits w' ops then 1 else 0) := by
  have hlen := h.length
  have hl := h.enc.len
  have hT : TargetsOK ts := ⟨h.nodup, fun q hq => h.enc.lt q (h.sub q hq)⟩
  have hO := h.enc.targets
  have hk64 : ts.length < 64 := by omega
  have hpow : ∀ k, k < 64 → 2 ^ k ≤ 2 ^ 64 := fun k hk => Nat.pow_le_pow_right (by omega) (by omega)
  choose g hg1 hg2 using fun i => expandIndex_eq h.enc h.nodup h.sub i
  obtain ⟨c, hc0, hc1, hc2⟩ := expandControls_eq h.enc cm cv h.csub
  -- the words of the larger space
  have hW : ∀ o : U64, o.toNat < 2 ^ ops.length → getBits (putBits 0 ops o.toNat) ops = o.toNat := fun o ho => getBits_putBits 0 hO ho
  have hWout : ∀ (x q : Nat), q ∉ ops → (putBits 0 ops x).getLsbD q = false := fun x q hq => by
    rw [getLsbD_putBits_notMem 0 hO.lt _ hq]; exact BitVec.getLsbD_zero
  have hTout : ∀ (x q : Nat), q ∉ ts → (putBits 0 ts x).getLsbD q = false := fun x q hq => by
    rw [getLsbD_putBits_notMem 0 hT.lt _ hq]; exact BitVec.getLsbD_zero
  have hcond : ∀ o : U64, o.toNat < 2 ^ ops.length → (o &&& c.1 = c.2 ↔ putBits 0 ops o.toNat &&& cm = cv &&& cm) := by
    intro o ho
    rw [← BitVec.toNat_inj, BitVec.toNat_and, hc1, hc2]
    conv_lhs => lhs; lhs; rw [← hW o ho]
    rw [getBits_and, getBits_inj]
    constructor
    · intro hh
      apply U64.ext; intro q _
      by_cases hq : q ∈ ops
      · exact hh q hq
      · have : cm.getLsbD q = false := by
          by_contra hne; exact hq (h.csub q (by simpa using hne))
        rw [BitVec.getLsbD_and, BitVec.getLsbD_and, this]; simp
    · intro hh q _; rw [hh]
  have hcmt : ∀ q, cm.getLsbD q = true → q ∉ ts := fun q hq hm => by rw [h.disj q hm] at hq; cases hq
  have htoN : ∀ k, k < 64 → (1#64 <<< k).toNat = 2 ^ k := fun k hk => toNat_one_shl hk
  -- the assignments
  set K := 2 ^ ts.length with hK
  set N := 2 ^ ops.length with hN
  set outer := (words N).filter fun i => decide (i &&& c.1 = c.2) with houter
  set l := (List.range K).flatMap fun i => (List.range K).flatMap fun j => outer.map fun o => (i, j, o) with hl_def
  have hmem : ∀ a : Nat × Nat × U64, a ∈ l ↔ a.1 < K ∧ a.2.1 < K ∧ a.2.2.toNat < N ∧ putBits 0 ops a.2.2.toNat &&& cm = cv &&& cm := by
    rintro ⟨i, j, o⟩
    simp only [hl_def, houter, List.mem_flatMap, List.mem_range, List.mem_map, List.mem_filter, decide_eq_true_eq, Prod.mk.injEq]
    constructor
    · rintro ⟨i', hi, j', hj, o', ⟨ho, hoc⟩, rfl, rfl, rfl⟩
      rw [mem_words (hpow _ hl)] at ho
      exact ⟨hi, hj, ho, (hcond _ ho).1 hoc⟩
    · rintro ⟨hi, hj, ho, hoc⟩
      exact ⟨i, hi, j, hj, o, ⟨(mem_words (hpow _ hl)).2 ho, (hcond _ ho).2 hoc⟩, rfl, rfl, rfl⟩
  have hpair : l.Pairwise fun a b => a.1 < b.1 ∨ a.1 = b.1 ∧ a.2.1 ≤ b.2.1 := by
    rw [hl_def, List.pairwise_flatMap]
    refine ⟨fun i _ => ?_, List.pairwise_lt_range.imp ?_⟩
    · rw [List.pairwise_flatMap]
      refine ⟨fun j _ => ?_, List.pairwise_lt_range.imp ?_⟩
      · rw [List.pairwise_map]
        exact List.pairwise_of_forall fun _ _ => .inr ⟨rfl, le_rfl⟩
      · intro j j' hjj a ha b hb
        obtain ⟨o, -, rfl⟩ := List.mem_map.1 ha
        obtain ⟨o', -, rfl⟩ := List.mem_map.1 hb
        exact .inr ⟨rfl, hjj.le⟩
    · intro i i' hii a ha b hb
      simp only [List.mem_flatMap, List.mem_map] at ha hb
      obtain ⟨j, -, o, -, rfl⟩ := ha
      obtain ⟨j', -, o', -, rfl⟩ := hb
      exact .inl hii
  -- where an assignment goes
  set A : Nat → U64 → U64 := fun i o => putBits 0 ts i ||| (cv &&& cm) ||| putBits 0 ops o.toNat with hA
  have hAnat : ∀ i o, i < K → o.toNat < N → (g (BitVec.ofNat 64 i) ||| c.2 ||| o).toNat = getBits (A i o) ops := by
    intro i o hi ho
    rw [BitVec.toNat_or, BitVec.toNat_or, hg2, hc2, hA]
    dsimp only
    rw [getBits_or, getBits_or, hW o ho, BitVec.toNat_ofNat, Nat.mod_eq_of_lt (lt_of_lt_of_le hi (hpow _ hk64))]
  have hAbit : ∀ i o q, (A i o).getLsbD q = ((putBits 0 ts i).getLsbD q || (cv &&& cm).getLsbD q || (putBits 0 ops o.toNat).getLsbD q) := by
    intro i o q
    rw [hA]; dsimp only
    rw [BitVec.getLsbD_or, BitVec.getLsbD_or]
  set f : Nat × Nat × U64 → Nat × Nat × R := fun a => (getBits (A a.1 a.2.2) ops, getBits (A a.2.1 a.2.2) ops, m.entry a.1 a.2.1) with hf
  have hidx : (words K).mapM (fun i => expandIndex i (ts.map (posOf ops)) 0 0) = .ok ((words K).map g) :=
    mapM_ok _ g _ fun i _ => hg1 i
  have helem : ∀ i, i < K → elemAt ((words K).map g) i = .ok (g (BitVec.ofNat 64 i)) := by
    intro i hi
    unfold elemAt words
    rw [List.getElem?_map, List.getElem?_map, List.getElem?_range hi]
    rfl
  have hfold := foldlM_set (expandWrite m ((words K).map g) c.2) f l N N (by
    intro a ha acc hr hcl
    obtain ⟨hi, hj, ho, hoc⟩ := (hmem a).1 ha
    unfold expandWrite DMat.get
    rw [helem _ hi, ok_bind, helem _ hj, ok_bind, if_pos ⟨by rw [h.rows]; exact hi, by rw [h.cols]; exact hj⟩, ok_bind, hAnat _ _ hi ho,
      hAnat _ _ hj ho]) (fun a _ => ⟨getBits_lt _ _, getBits_lt _ _⟩) (fun _ _ => 0)
  obtain ⟨e, he1, he2, he3⟩ := foldlM_diag (R := R) (fun i : U64 => i &&& c.1 ≠ c.2) (words N) N (fun i hi => (mem_words (hpow _ hl)).1 hi)
    ((l.map f).foldl upd (fun _ _ => 0))
  refine ⟨e, ?_, ?_⟩
  · unfold getExpandedMatrix
    rw [mapM_ok _ (posOf ops) _ (fun q _ => lowerBound_eq h.enc q), ok_bind, shl1_ok hk64, ok_bind, htoN _ hk64, hidx, ok_bind, hc0, ok_bind,
      if_neg (by omega), shl1_ok (by omega), ok_bind, shl1_ok hl, ok_bind, htoN _ hl]
    dsimp only
    rw [hfold, ok_bind]
    exact he1
  · intro w w'
    -- the condition, on the positions
    have hctrl : ∀ i : U64, i.toNat < N → i.toNat = getBits w ops → (i &&& c.1 = c.2 ↔ w &&& cm = cv &&& cm) := by
      intro i hi hiw
      rw [hcond i hi]
      have hag : ∀ q ∈ ops, (putBits 0 ops i.toNat).getLsbD q = w.getLsbD q := by
        rw [← getBits_inj, hW i hi, hiw]
      have : putBits 0 ops i.toNat &&& cm = w &&& cm := by
        apply U64.ext; intro q _
        rw [BitVec.getLsbD_and, BitVec.getLsbD_and]
        by_cases hq : q ∈ ops
        · rw [hag q hq]
        · have : cm.getLsbD q = false := by
            by_contra hne; exact hq (h.csub q (by simpa using hne))
          simp [this]
      rw [this]
    -- consequences of a match
    have hmatch : ∀ a ∈ l, (f a).1 = getBits w ops → ∀ q ∈ ops,
        ((putBits 0 ts a.1).getLsbD q || (cv &&& cm).getLsbD q || (putBits 0 ops a.2.2.toNat).getLsbD q) = w.getLsbD q := by
      intro a ha hm q hq
      rw [← hAbit]
      exact getBits_inj.1 hm q hq
    have hmatch' : ∀ a ∈ l, (f a).2.1 = getBits w' ops → ∀ q ∈ ops,
        ((putBits 0 ts a.2.1).getLsbD q || (cv &&& cm).getLsbD q || (putBits 0 ops a.2.2.toNat).getLsbD q) = w'.getLsbD q := by
      intro a ha hm q hq
      rw [← hAbit]
      exact getBits_inj.1 hm q hq
    have hmc : ∀ a ∈ l, (f a).1 = getBits w ops → w &&& cm = cv &&& cm := by
      intro a ha hm
      obtain ⟨hi, hj, ho, hoc⟩ := (hmem a).1 ha
      apply U64.ext; intro q _
      by_cases hq : cm.getLsbD q = true
      · have h1 := hmatch a ha hm q (h.csub q hq)
        have h2 := congrArg (fun x => BitVec.getLsbD x q) hoc
        simp only [BitVec.getLsbD_and, hq, Bool.and_true] at h1 h2 ⊢
        rw [hTout _ _ (hcmt q hq), h2] at h1
        simpa using h1.symm
      · rw [BitVec.getLsbD_and, BitVec.getLsbD_and]; simp [hq]
    by_cases hc : w &&& cm = cv &&& cm
    · rw [if_pos hc, he3 _ _ (by
        intro i hi hP hh
        exact hP ((hctrl i ((mem_words (hpow _ hl)).1 hi) hh.1.symm).2 hc))]
      by_cases hag : ∀ q ∈ ops, q ∉ ts → w.getLsbD q = w'.getLsbD q
      · rw [if_pos hag]
        apply foldl_upd_last f (fun a => a.1 = getBits w ts ∧ a.2.1 = getBits w' ts ∧ (f a).1 = getBits w ops ∧ (f a).2.1 = getBits w' ops)
        · set o : U64 := BitVec.ofNat 64 (getBits (putBits w ts 0) ops) with ho
          have hoN : o.toNat = getBits (putBits w ts 0) ops := by
            rw [ho, BitVec.toNat_ofNat, Nat.mod_eq_of_lt (lt_of_lt_of_le (getBits_lt _ _) (hpow _ hl))]
          have hob : ∀ q ∈ ops, (putBits 0 ops o.toNat).getLsbD q = (putBits w ts 0).getLsbD q := by
            rw [← getBits_inj, hoN]
            exact getBits_putBits 0 hO (getBits_lt _ _)
          have hob1 : ∀ q ∈ ops, q ∉ ts → (putBits 0 ops o.toNat).getLsbD q = w.getLsbD q := fun q hq hqt => by
            rw [hob q hq, getLsbD_putBits_notMem _ hT.lt _ hqt]
          have hob2 : ∀ q ∈ ts, (putBits 0 ops o.toNat).getLsbD q = false := fun q hq => by
            rw [hob q (h.sub q hq)]
            obtain ⟨k, hk, rfl⟩ := List.getElem_of_mem hq
            rw [getLsbD_putBits_get _ hT.nodup hT.lt _ hk]; simp
          have hcv : ∀ q, (cv &&& cm).getLsbD q = true → w.getLsbD q = true ∧ cm.getLsbD q = true := by
            intro q hq
            rw [← hc, BitVec.getLsbD_and, Bool.and_eq_true] at hq
            exact hq
          have hbits : ∀ v : U64, (∀ q ∈ ops, q ∉ ts → w.getLsbD q = v.getLsbD q) → getBits (A (getBits v ts) o) ops = getBits v ops := by
            intro v hv
            rw [getBits_inj]
            intro q hq
            rw [hAbit]
            by_cases hqt : q ∈ ts
            · rw [hob2 q hqt]
              have : (cv &&& cm).getLsbD q = false := by
                by_contra hne
                exact hcmt q (hcv q (by simpa using hne)).2 hqt
              rw [this]
              obtain ⟨k, hk, rfl⟩ := List.getElem_of_mem hqt
              rw [getLsbD_putBits_get _ hT.nodup hT.lt _ hk, testBit_getBits, List.getElem?_eq_getElem hk]
              simp
            · rw [hob1 q hq hqt, hTout _ _ hqt, ← hv q hq hqt]
              cases hx : (cv &&& cm).getLsbD q
              · simp
              · simp [(hcv q hx).1]
          refine ⟨(getBits w ts, getBits w' ts, o), ?_, rfl, rfl, hbits w fun _ _ _ => rfl, hbits w' hag⟩
          rw [hmem]
          refine ⟨getBits_lt _ _, getBits_lt _ _, ?_, ?_⟩
          · rw [hoN]; exact getBits_lt _ _
          · rw [← hc]
            apply U64.ext; intro q _
            rw [BitVec.getLsbD_and, BitVec.getLsbD_and]
            by_cases hq : cm.getLsbD q = true
            · rw [hob1 q (h.csub q hq) (hcmt q hq)]
            · simp [hq]
        · rintro a ha ⟨h1, h2, h3, h4⟩
          exact Prod.ext h3 (Prod.ext h4 (by rw [hf]; dsimp only; rw [h1, h2]))
        · refine List.Pairwise.imp_of_mem ?_ hpair
          rintro a b ha hb hab ⟨h1, h2, -, -⟩ h3 h4
          have hle : b.1 ≤ getBits w ts := by
            apply le_of_testBit
            intro k hk
            have hkl : k < ts.length := by
              by_contra hge
              rw [Nat.testBit_lt_two_pow (lt_of_lt_of_le ((hmem b).1 hb).1 (Nat.pow_le_pow_right (by omega) (by omega)))] at hk
              cases hk
            have := hmatch b hb h3 ts[k] (h.sub _ (List.getElem_mem hkl))
            rw [getLsbD_putBits_get _ hT.nodup hT.lt _ hkl, hk] at this
            rw [testBit_getBits, List.getElem?_eq_getElem hkl]
            simpa using this.symm
          have hle' : b.2.1 ≤ getBits w' ts := by
            apply le_of_testBit
            intro k hk
            have hkl : k < ts.length := by
              by_contra hge
              rw [Nat.testBit_lt_two_pow (lt_of_lt_of_le ((hmem b).1 hb).2.1 (Nat.pow_le_pow_right (by omega) (by omega)))] at hk
              cases hk
            have := hmatch' b hb h4 ts[k] (h.sub _ (List.getElem_mem hkl))
            rw [getLsbD_putBits_get _ hT.nodup hT.lt _ hkl, hk] at this
            rw [testBit_getBits, List.getElem?_eq_getElem hkl]
            simpa using this.symm
          rw [hf]; dsimp only
          rw [show b.1 = getBits w ts by omega, show b.2.1 = getBits w' ts by omega]
      · rw [if_neg hag, foldl_upd_none]
        rintro x hx ⟨h3, h4⟩
        obtain ⟨a, ha, rfl⟩ := List.mem_map.1 hx
        apply hag
        intro q hq hqt
        rw [← hmatch a ha h3 q hq, ← hmatch' a ha h4 q hq, hTout _ _ hqt, hTout _ _ hqt]
    · rw [if_neg hc]
      by_cases heq : getBits w ops = getBits w' ops
      · rw [if_pos heq, ← heq]
        have hiN : (BitVec.ofNat 64 (getBits w ops)).toNat = getBits w ops := by
          rw [BitVec.toNat_ofNat, Nat.mod_eq_of_lt (lt_of_lt_of_le (getBits_lt _ _) (hpow _ hl))]
        have hlt : (BitVec.ofNat 64 (getBits w ops)).toNat < N := by rw [hiN]; exact getBits_lt _ _
        have := he2 (BitVec.ofNat 64 (getBits w ops)) ((mem_words (hpow _ hl)).2 hlt) (fun hh => hc ((hctrl _ hlt hiN).1 hh))
        rwa [hiN] at this
      · rw [if_neg heq, he3 _ _ (fun i _ _ hh => heq (hh.1.trans hh.2.symm)), foldl_upd_none]
        rintro x hx ⟨h3, -⟩
        obtain ⟨a, ha, rfl⟩ := List.mem_map.1 hx
        exact hc (hmc a ha h3)

/-- the operator of the expanded matrix -/
theorem expand_operator {m : DMat ℂ} {ts : List Nat} {cm : U64} {ops : List Nat} (h : ExpandOK m ts cm ops) (cv : U64)
    {cs : List (Nat × Bool)} (hcs : ∀ j : U64, CtrlOK cs j ↔ j &&& cm = cv &&& cm) :
    ∃ M, getExpandedMatrix m ts cm cv ops = .ok M ∧ M.rows = 2 ^ ops.length ∧ M.cols = 2 ^ ops.length ∧
      applyMat ops M.entry [] = applyMat ts m.entry cs := by
  obtain ⟨e, he, hspec⟩ := expand_spec h cv
  refine ⟨_, he, rfl, rfl, ?_⟩
  have hT : TargetsOK ts := ⟨h.nodup, fun q hq => h.enc.lt q (h.sub q hq)⟩
  have hO := h.enc.targets
  funext ψ j
  unfold applyMat
  rw [if_pos (by intro p hp; simp at hp)]
  have hx : ∀ x, x < 2 ^ ops.length → e (getBits j ops) x = e (getBits j ops) (getBits (putBits j ops x) ops) := fun x hx => by
    rw [getBits_putBits j hO hx]
  by_cases hc : CtrlOK cs j
  · rw [if_pos hc]
    have hterm : ∀ x ∈ Finset.range (2 ^ ops.length), e (getBits j ops) x * ψ (putBits j ops x) =
        if ∀ q ∈ ops, q ∉ ts → j.getLsbD q = (putBits j ops x).getLsbD q then
          m.entry (getBits j ts) (getBits (putBits j ops x) ts) * ψ (putBits j ops x) else 0 := by
      intro x hxm
      rw [hx x (Finset.mem_range.1 hxm), hspec, if_pos ((hcs j).1 hc)]
      split
      · rfl
      · rw [zero_mul]
    dsimp only
    rw [Finset.sum_congr rfl hterm, ← Finset.sum_filter]
    have hround : ∀ y, putBits j ops (getBits (putBits j ts y) ops) = putBits j ts y := by
      intro y
      apply U64.ext; intro q _
      by_cases hq : q ∈ ops
      · obtain ⟨k, hk, rfl⟩ := List.getElem_of_mem hq
        rw [getLsbD_putBits_get _ hO.nodup hO.lt _ hk, testBit_getBits, List.getElem?_eq_getElem hk]
      · rw [getLsbD_putBits_notMem _ hO.lt _ hq, getLsbD_putBits_notMem _ hT.lt _ (fun hm => hq (h.sub q hm))]
    refine Finset.sum_nbij' (fun x => getBits (putBits j ops x) ts) (fun y => getBits (putBits j ts y) ops) ?_ ?_ ?_ ?_ ?_
    · intro x _; exact Finset.mem_range.2 (getBits_lt _ _)
    · intro y _
      rw [Finset.mem_filter]
      refine ⟨Finset.mem_range.2 (getBits_lt _ _), ?_⟩
      intro q hq hqt
      rw [hround, getLsbD_putBits_notMem _ hT.lt _ hqt]
    · intro x hxm
      rw [Finset.mem_filter, Finset.mem_range] at hxm
      have : putBits j ts (getBits (putBits j ops x) ts) = putBits j ops x := by
        apply U64.ext; intro q _
        by_cases hqt : q ∈ ts
        · obtain ⟨k, hk, rfl⟩ := List.getElem_of_mem hqt
          rw [getLsbD_putBits_get _ hT.nodup hT.lt _ hk, testBit_getBits, List.getElem?_eq_getElem hk]
        · rw [getLsbD_putBits_notMem _ hT.lt _ hqt]
          by_cases hq : q ∈ ops
          · exact hxm.2 q hq hqt
          · rw [getLsbD_putBits_notMem _ hO.lt _ hq]
      rw [this, getBits_putBits j hO hxm.1]
    · intro y hy
      rw [hround, getBits_putBits j hT (Finset.mem_range.1 hy)]
    · intro x hxm
      rw [Finset.mem_filter, Finset.mem_range] at hxm
      congr 2
      apply U64.ext; intro q _
      by_cases hqt : q ∈ ts
      · obtain ⟨k, hk, rfl⟩ := List.getElem_of_mem hqt
        rw [getLsbD_putBits_get _ hT.nodup hT.lt _ hk, testBit_getBits, List.getElem?_eq_getElem hk]
      · rw [getLsbD_putBits_notMem _ hT.lt _ hqt]
        by_cases hq : q ∈ ops
        · exact (hxm.2 q hq hqt).symm
        · rw [getLsbD_putBits_notMem _ hO.lt _ hq]
  · rw [if_neg hc]
    dsimp only
    rw [Finset.sum_eq_single (getBits j ops)]
    · rw [hspec, if_neg (fun hh => hc ((hcs j).2 hh)), if_pos rfl, one_mul, putBits_getBits j hO]
    · intro x hxm hne
      rw [hx x (Finset.mem_range.1 hxm), hspec, if_neg (fun hh => hc ((hcs j).2 hh)), if_neg, zero_mul]
      rw [getBits_putBits j hO (Finset.mem_range.1 hxm)]
      exact fun hh => hne hh.symm
    · intro hn
      exact absurd (Finset.mem_range.2 (getBits_lt j ops)) hn

end Verif.Proofs
