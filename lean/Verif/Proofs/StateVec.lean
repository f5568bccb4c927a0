import Verif.Model.StateVec
import Verif.Spec.StateVec
import Verif.Proofs.PauliExpect
import Verif.Proofs.PauliBatch

/-! # State vector functions compute the specified quantities -/

namespace Verif.Proofs
open Verif Verif.Model Verif.Spec
attribute [-simp] BitVec.getLsbD_eq_getElem

theorem readSq_ok {dim : Nat} {ψ : U64 → ℂ} {i : U64} (h : i.toNat < dim) :
    readSq dim ψ i = .ok (Complex.normSq (ψ i)) := by
  unfold readSq; rw [readAt_ok h]; rfl

theorem pow64 {n : Nat} (hn : n ≤ 63) : 2 ^ n ≤ 2 ^ 64 := Nat.pow_le_pow_right (by omega) (by omega)

theorem toNat_ofNat_pow {n i : Nat} (hn : n ≤ 63) (hi : i < 2 ^ n) : (BitVec.ofNat 64 i).toNat = i := by
  rw [BitVec.toNat_ofNat, Nat.mod_eq_of_lt (lt_of_lt_of_le hi (pow64 hn))]

theorem squaredNorm_eq {n : Nat} (hn : n ≤ 63) (ψ : U64 → ℂ) : squaredNorm n ψ = .ok (normSq (2 ^ n) ψ) := by
  unfold squaredNorm
  rw [reduceSum_ok (g := fun i => Complex.normSq (ψ (BitVec.ofNat 64 i)))]
  · unfold normSq; rw [sum_indices (pow64 hn)]
  · intro i hi; exact readSq_ok (by rw [toNat_ofNat_pow hn hi]; exact hi)

/-- insert the bit `b` at position `t` -/
def insertBit (i : U64) (t : Nat) (b : Bool) : U64 := insertZeroAt i t ||| (BitVec.ofNat 64 b.toNat <<< t)

theorem getLsbD_insertBit {t : Nat} (ht : t < 64) (i : U64) (b : Bool) (k : Nat) (hk : k < 64) :
    (insertBit i t b).getLsbD k = if k < t then i.getLsbD k else if k = t then b else i.getLsbD (k - 1) := by
  unfold insertBit
  rw [BitVec.getLsbD_or, getLsbD_insertZeroAt ht _ _ hk, BitVec.getLsbD_shiftLeft]
  by_cases h1 : k < t
  · simp [h1]
  · by_cases h2 : k = t
    · subst h2; cases b <;> simp [hk]
    · have : k - t ≠ 0 := by omega
      have h3 : (BitVec.ofNat 64 b.toNat).getLsbD (k - t) = false := by
        cases b
        · simp
        · simp [BitVec.getLsbD_one]
          omega
      simp [h1, h2, h3]

theorem insertBit_xor {t : Nat} (ht : t < 64) (i : U64) (b : Bool) :
    insertZeroAt i t ^^^ (BitVec.ofNat 64 b.toNat <<< t) = insertBit i t b := by
  apply U64.ext
  intro k hk
  rw [getLsbD_insertBit ht _ _ _ hk, BitVec.getLsbD_xor, getLsbD_insertZeroAt ht _ _ hk, BitVec.getLsbD_shiftLeft]
  by_cases h1 : k < t
  · simp [h1]
  · by_cases h2 : k = t
    · subst h2; cases b <;> simp [hk]
    · have : k - t ≠ 0 := by omega
      have h3 : (BitVec.ofNat 64 b.toNat).getLsbD (k - t) = false := by
        cases b
        · simp
        · simp [BitVec.getLsbD_one]
          omega
      simp [h1, h2, h3]

theorem insertBit_lt {m t : Nat} (hm : m + 1 ≤ 64) (ht : t ≤ m) {i : U64} (hi : i.toNat < 2 ^ m) (b : Bool) :
    (insertBit i t b).toNat < 2 ^ (m + 1) := by
  rw [toNat_lt_two_pow_iff] at hi ⊢
  intro k hk
  by_cases h64 : k < 64
  · rw [getLsbD_insertBit (by omega) _ _ _ h64, if_neg (by omega), if_neg (by omega)]
    exact hi _ (by omega)
  · exact getLsbD_high _ (by omega)

theorem insertBit_inj {m t : Nat} (hm : m + 1 ≤ 64) (ht : t ≤ m) {i i' : U64} {b : Bool} (hi : i.toNat < 2 ^ m)
    (hi' : i'.toNat < 2 ^ m) (h : insertBit i t b = insertBit i' t b) : i = i' := by
  rw [toNat_lt_two_pow_iff] at hi hi'
  apply U64.ext
  intro k hk
  by_cases h1 : k < t
  · have := congrArg (fun x => BitVec.getLsbD x k) h
    simpa [getLsbD_insertBit (show t < 64 by omega) _ _ k hk, h1] using this
  · by_cases h2 : m ≤ k
    · rw [hi k h2, hi' k h2]
    · have := congrArg (fun x => BitVec.getLsbD x (k + 1)) h
      rwa [getLsbD_insertBit (show t < 64 by omega) _ _ (k + 1) (by omega),
        getLsbD_insertBit (show t < 64 by omega) _ _ (k + 1) (by omega), if_neg (by omega), if_neg (by omega),
        if_neg (by omega), if_neg (by omega), Nat.add_sub_cancel] at this

theorem insertBit_surj {m t : Nat} (hm : m + 1 ≤ 64) (ht : t ≤ m) {j : U64} {b : Bool} (hj : j.toNat < 2 ^ (m + 1))
    (hb : j.getLsbD t = b) : ∃ i : U64, i.toNat < 2 ^ m ∧ insertBit i t b = j := by
  rw [toNat_lt_two_pow_iff] at hj
  let lowm : U64 := (1#64 <<< t) - 1
  let i : U64 := ((j >>> 1) &&& ~~~lowm) ||| (j &&& lowm)
  have hbit : ∀ k, k < 64 → i.getLsbD k = if k < t then j.getLsbD k else j.getLsbD (k + 1) := by
    intro k hk
    simp only [i, lowm, BitVec.getLsbD_or, BitVec.getLsbD_and, BitVec.getLsbD_not,
      getLsbD_lowMask (show t < 64 by omega), BitVec.getLsbD_ushiftRight]
    by_cases h1 : k < t
    · simp [h1]
    · simp [h1, hk, Nat.add_comm]
  refine ⟨i, ?_, ?_⟩
  · rw [toNat_lt_two_pow_iff]
    intro k hk
    by_cases h64 : k < 64
    · rw [hbit _ h64, if_neg (by omega)]
      exact hj _ (by omega)
    · exact getLsbD_high _ (by omega)
  · apply U64.ext
    intro k hk
    rw [getLsbD_insertBit (by omega) _ _ _ hk]
    split
    · rw [hbit _ hk, if_pos ‹_›]
    · split
      · subst_vars; rfl
      · rw [hbit _ (by omega), if_neg (by omega)]
        congr 1; omega

theorem insertBit_sum {S : Type} [AddCommMonoid S] {m t : Nat} (hm : m + 1 ≤ 64) (ht : t ≤ m) (b : Bool) (g : U64 → S) :
    ∑ i ∈ Finset.range (2 ^ m), g (insertBit (BitVec.ofNat 64 i) t b) =
      ∑ j ∈ indices (2 ^ (m + 1)), if j.getLsbD t = b then g j else 0 := by
  have hm1 : 2 ^ m ≤ 2 ^ 64 := pow64 (by omega)
  have hm2 : 2 ^ (m + 1) ≤ 2 ^ 64 := Nat.pow_le_pow_right (by omega) hm
  rw [← sum_indices hm1 (fun i => g (insertBit i t b)), ← Finset.sum_filter]
  refine Finset.sum_bij (fun i _ => insertBit i t b) ?_ ?_ ?_ ?_
  · intro i hi
    rw [mem_indices hm1] at hi
    rw [Finset.mem_filter, mem_indices hm2]
    refine ⟨insertBit_lt hm ht hi b, ?_⟩
    rw [getLsbD_insertBit (by omega) _ _ _ (by omega), if_neg (by omega), if_pos rfl]
  · intro i hi i' hi' e
    rw [mem_indices hm1] at hi hi'
    exact insertBit_inj hm ht hi hi' e
  · intro j hj
    rw [Finset.mem_filter, mem_indices hm2] at hj
    obtain ⟨i, hi, e⟩ := insertBit_surj hm ht hj.1 hj.2
    exact ⟨i, (mem_indices hm1).2 hi, e⟩
  · intro i _; rfl

/-! ## zero probability -/

theorem insertBit_false (i : U64) (t : Nat) : insertBit i t false = insertZeroAt i t := by
  unfold insertBit; simp

theorem zeroSum {n q : Nat} (hn : n ≤ 63) (hq : q < n) (ψ : U64 → ℂ) :
    reduceSum ((2 ^ n) >>> 1) (fun i => readSq (2 ^ n) ψ (insertZeroAt i q)) = .ok (bitProb n ψ q false) := by
  obtain ⟨m, rfl⟩ : ∃ m, n = m + 1 := ⟨n - 1, by omega⟩
  have hs : (2 ^ (m + 1)) >>> 1 = 2 ^ m := by rw [Nat.shiftRight_eq_div_pow, pow_succ]; simp
  rw [hs, reduceSum_ok (g := fun i => Complex.normSq (ψ (insertBit (BitVec.ofNat 64 i) q false)))]
  · rw [insertBit_sum (by omega) (by omega) false (fun j => Complex.normSq (ψ j))]
    rfl
  · intro i hi
    rw [insertBit_false]
    apply readSq_ok
    rw [← insertBit_false]
    exact insertBit_lt (by omega) (by omega) (by rw [toNat_ofNat_pow (by omega) hi]; exact hi) _

theorem zeroProbability_eq {n q : Nat} (hn : n ≤ 63) (hq : q < n) (ψ : U64 → ℂ) :
    zeroProbability n q ψ = .ok (bitProb n ψ q false) := by
  unfold zeroProbability
  rw [if_neg (by omega), zeroSum hn hq]

theorem zeroProbability_batch {s : Batch} {q : Nat} (hn : s.n ≤ 63) (hq : q < s.n) :
    s.zeroProbability q = .ok ((List.range s.size).map fun b => bitProb s.n (s.raw b) q false) := by
  unfold Batch.zeroProbability
  rw [if_neg (by omega), perSlot_ok (g := fun b => bitProb s.n (s.raw b) q false)]
  intro b _; exact zeroSum hn hq _

/-! ## marginals -/

/-- the measured qubits of a pattern starting at position `i` -/
def measuredOf (i : Nat) : List Nat → List (Nat × Bool)
  | [] => []
  | v :: vs => if v = 0 then (i, false) :: measuredOf (i + 1) vs else if v = 1 then (i, true) :: measuredOf (i + 1) vs
    else measuredOf (i + 1) vs

theorem measuredTargets_ok (i : Nat) (l : List Nat) (h : ∀ v ∈ l, v ≤ 2) :
    measuredTargets i l = .ok ((measuredOf i l).map fun p => (p.1, p.2.toNat)) := by
  induction l generalizing i with
  | nil => rfl
  | cons v vs ih =>
    have ih' := ih (i + 1) (fun w hw => h w (by simp [hw]))
    have hv := h v (by simp)
    unfold measuredTargets measuredOf
    by_cases h0 : v = 0
    · subst h0; simp [ih', bind, Except.bind, pure, Except.pure]
    · by_cases h1 : v = 1
      · subst h1; simp [ih', bind, Except.bind, pure, Except.pure]
      · have : v = 2 := by omega
        subst this; simp [ih']

theorem measuredTargets_bad (i : Nat) (l : List Nat) (h : ∃ v ∈ l, 2 < v) :
    ∃ e, measuredTargets i l = .error (.throw e) := by
  induction l generalizing i with
  | nil => simp at h
  | cons v vs ih =>
    unfold measuredTargets
    by_cases hv : 2 < v
    · rw [if_neg (by omega), if_pos (by omega)]; exact ⟨_, rfl⟩
    · have : ∃ w ∈ vs, 2 < w := by
        obtain ⟨w, hw, h2⟩ := h
        simp only [List.mem_cons] at hw
        rcases hw with rfl | hw
        · exact absurd h2 hv
        · exact ⟨w, hw, h2⟩
      obtain ⟨e, he⟩ := ih (i + 1) this
      split
      · rw [he]; exact ⟨e, rfl⟩
      · split
        · exact ⟨_, rfl⟩
        · exact ⟨e, he⟩

theorem measuredOf_ge (i : Nat) (l : List Nat) : ∀ p ∈ measuredOf i l, i ≤ p.1 ∧ p.1 < i + l.length := by
  induction l generalizing i with
  | nil => simp [measuredOf]
  | cons v vs ih =>
    intro p hp
    unfold measuredOf at hp
    have rest : p ∈ measuredOf (i + 1) vs → i ≤ p.1 ∧ p.1 < i + (v :: vs).length := fun h => by
      have := ih (i + 1) p h; simp only [List.length_cons]; omega
    split at hp
    · rcases List.mem_cons.1 hp with rfl | h
      · simp
      · exact rest h
    · split at hp
      · rcases List.mem_cons.1 hp with rfl | h
        · simp
        · exact rest h
      · exact rest hp

theorem measuredOf_sorted (i : Nat) (l : List Nat) : (measuredOf i l).Pairwise (fun a b => a.1 < b.1) := by
  induction l generalizing i with
  | nil => simp [measuredOf]
  | cons v vs ih =>
    unfold measuredOf
    have h := ih (i + 1)
    have hc : ∀ b, ((i, b) :: measuredOf (i + 1) vs).Pairwise (fun a b => a.1 < b.1) := fun b =>
      List.pairwise_cons.2 ⟨fun p hp => by have := measuredOf_ge (i + 1) vs p hp; show i < p.1; omega, h⟩
    split
    · exact hc _
    · split
      · exact hc _
      · exact h

theorem measuredOf_length (i : Nat) (l : List Nat) : (measuredOf i l).length ≤ l.length := by
  induction l generalizing i with
  | nil => simp [measuredOf]
  | cons v vs ih =>
    have := ih (i + 1)
    unfold measuredOf
    split
    · simp; exact this
    · split
      · simp; exact this
      · simp; omega

theorem mem_measuredOf (i : Nat) (l : List Nat) (q : Nat) (b : Bool) :
    (q, b) ∈ measuredOf i l ↔ i ≤ q ∧ l[q - i]? = some b.toNat := by
  induction l generalizing i with
  | nil => simp [measuredOf]
  | cons v vs ih =>
    have key : ∀ c : Bool, v = c.toNat → ((q, b) ∈ (i, c) :: measuredOf (i + 1) vs ↔
        i ≤ q ∧ (v :: vs)[q - i]? = some b.toNat) := by
      intro c hc
      rw [List.mem_cons, ih (i + 1)]
      by_cases e : q = i
      · subst e
        simp only [Nat.sub_self, List.getElem?_cons_zero, hc]
        cases b <;> cases c <;> simp
      · have h1 : ((q, b) = (i, c)) ↔ False := by simp [e]
        rw [h1, false_or]
        constructor
        · rintro ⟨h, h'⟩
          refine ⟨by omega, ?_⟩
          rw [show q - i = (q - (i + 1)) + 1 by omega, List.getElem?_cons_succ]; exact h'
        · rintro ⟨h, h'⟩
          rw [show q - i = (q - (i + 1)) + 1 by omega, List.getElem?_cons_succ] at h'
          exact ⟨by omega, h'⟩
    unfold measuredOf
    by_cases h0 : v = 0
    · rw [if_pos h0]; exact key false h0
    · rw [if_neg h0]
      by_cases h1 : v = 1
      · rw [if_pos h1]; exact key true h1
      · rw [if_neg h1, ih (i + 1)]
        constructor
        · rintro ⟨h, h'⟩
          refine ⟨by omega, ?_⟩
          rw [show q - i = (q - (i + 1)) + 1 by omega, List.getElem?_cons_succ]; exact h'
        · rintro ⟨h, h'⟩
          by_cases e : q = i
          · subst e
            simp only [Nat.sub_self, List.getElem?_cons_zero, Option.some.injEq] at h'
            cases b
            · exact absurd h' h0
            · exact absurd h' h1
          · rw [show q - i = (q - (i + 1)) + 1 by omega, List.getElem?_cons_succ] at h'
            exact ⟨by omega, h'⟩

/-- inserting the bits of an ascending list -/
def insertBits (i : U64) (l : List (Nat × Bool)) : U64 := l.foldl (fun j p => insertBit j p.1 p.2) i

theorem insertValues_eq (i : U64) (l : List (Nat × Bool)) :
    insertValues i (l.map fun p => (p.1, p.2.toNat)) = insertBits i l := by
  unfold insertValues insertBits
  rw [List.foldl_map]; rfl

theorem insertValuesXor_eq (i : U64) (l : List (Nat × Bool)) (h : ∀ p ∈ l, p.1 < 64) :
    insertValuesXor i (l.map fun p => (p.1, p.2.toNat)) = insertBits i l := by
  unfold insertValuesXor insertBits
  rw [List.foldl_map]
  induction l generalizing i with
  | nil => rfl
  | cons p l ih =>
    rw [List.foldl_cons, List.foldl_cons, insertBit_xor (h p (by simp)), ih _ (fun q hq => h q (by simp [hq]))]

theorem insertBits_keep (i : U64) (l : List (Nat × Bool)) {t : Nat} (ht : ∀ p ∈ l, t < p.1) (h64 : ∀ p ∈ l, p.1 < 64)
    (h : t < 64) : (insertBits i l).getLsbD t = i.getLsbD t := by
  unfold insertBits
  induction l generalizing i with
  | nil => rfl
  | cons p l ih =>
    rw [List.foldl_cons, ih _ (fun q hq => ht q (by simp [hq])) (fun q hq => h64 q (by simp [hq])),
      getLsbD_insertBit (h64 p (by simp)) _ _ _ h, if_pos (ht p (by simp))]

/-- positions of an ascending list of length `k` below `m + k` leave room for the rest -/
theorem head_le {m : Nat} {p : Nat × Bool} {l : List (Nat × Bool)} (hs : (p :: l).Pairwise (fun a b => a.1 < b.1))
    (hlt : ∀ q ∈ p :: l, q.1 < m + (p :: l).length) : p.1 ≤ m := by
  induction l generalizing p m with
  | nil =>
    have := hlt p (by simp); simp at this; omega
  | cons q l ih =>
    rw [List.pairwise_cons] at hs
    have h1 := hs.1 q (by simp)
    have := ih (m := m + 1) hs.2 (fun r hr => by
      have := hlt r (by simp at hr ⊢; tauto)
      simp only [List.length_cons] at this ⊢; omega)
    omega

theorem insertBits_lt {m : Nat} {l : List (Nat × Bool)} (hm : m + l.length ≤ 64)
    (hs : l.Pairwise (fun a b => a.1 < b.1)) (hlt : ∀ q ∈ l, q.1 < m + l.length) {i : U64} (hi : i.toNat < 2 ^ m) :
    (insertBits i l).toNat < 2 ^ (m + l.length) := by
  unfold insertBits
  induction l generalizing m i with
  | nil => exact hi
  | cons p l ih =>
    have hp := head_le hs hlt
    rw [List.foldl_cons, List.length_cons, show m + (l.length + 1) = (m + 1) + l.length by omega]
    simp only [List.length_cons] at hm hlt
    exact ih (by omega) (List.pairwise_cons.1 hs).2
      (fun q hq => by have := hlt q (by simp [hq]); omega) (insertBit_lt (by omega) hp hi _)

theorem insertBits_sum {S : Type} [AddCommMonoid S] {m : Nat} {l : List (Nat × Bool)} (hm : m + l.length ≤ 64)
    (hs : l.Pairwise (fun a b => a.1 < b.1)) (hlt : ∀ q ∈ l, q.1 < m + l.length) (g : U64 → S) :
    ∑ i ∈ Finset.range (2 ^ m), g (insertBits (BitVec.ofNat 64 i) l) =
      ∑ j ∈ indices (2 ^ (m + l.length)), if ∀ p ∈ l, j.getLsbD p.1 = p.2 then g j else 0 := by
  induction l generalizing m g with
  | nil =>
    rw [sum_indices (Nat.pow_le_pow_right (by omega) hm)]
    simp [insertBits]
  | cons p l ih =>
    have hp := head_le hs hlt
    have hs' := List.pairwise_cons.1 hs
    simp only [List.length_cons] at hm hlt
    have e1 : ∀ i, insertBits i (p :: l) = insertBits (insertBit i p.1 p.2) l := fun i => rfl
    simp only [e1]
    rw [insertBit_sum (by omega) hp p.2 (fun j => g (insertBits j l))]
    have e2 : ∀ j : U64, (if j.getLsbD p.1 = p.2 then g (insertBits j l) else 0) =
        (fun x => if x.getLsbD p.1 = p.2 then g x else 0) (insertBits j l) := by
      intro j
      dsimp only
      rw [insertBits_keep j l (fun q hq => hs'.1 q hq)
        (fun q hq => by have := hlt q (by simp [hq]); omega) (by omega)]
    rw [Finset.sum_congr rfl (fun j _ => e2 j), sum_indices (Nat.pow_le_pow_right (by omega) (by omega)),
      ih (m := m + 1) (by omega) hs'.2 (fun q hq => by have := hlt q (by simp [hq]); omega)
        (fun x => if x.getLsbD p.1 = p.2 then g x else 0), List.length_cons,
      show m + (l.length + 1) = m + 1 + l.length by omega]
    apply Finset.sum_congr rfl
    intro j _
    have hc : (∀ q ∈ p :: l, j.getLsbD q.1 = q.2) ↔ (j.getLsbD p.1 = p.2 ∧ ∀ q ∈ l, j.getLsbD q.1 = q.2) :=
      List.forall_mem_cons
    by_cases h1 : j.getLsbD p.1 = p.2
    · by_cases h2 : ∀ q ∈ l, j.getLsbD q.1 = q.2
      · rw [if_pos h2, if_pos h1, if_pos (hc.2 ⟨h1, h2⟩)]
      · rw [if_neg h2, if_neg (fun h => h2 (hc.1 h).2)]
    · rw [if_neg h1, ite_self, if_neg (fun h => h1 (hc.1 h).1)]

theorem matches_iff (pattern : List Nat) (j : U64) :
    (∀ p ∈ measuredOf 0 pattern, j.getLsbD p.1 = p.2) ↔ Matches pattern j := by
  constructor
  · intro h q b hq
    exact h (q, b) ((mem_measuredOf 0 pattern q b).2 ⟨by omega, by simpa using hq⟩)
  · rintro h ⟨q, b⟩ hp
    have := (mem_measuredOf 0 pattern q b).1 hp
    exact h q b (by simpa using this.2)

theorem marginalSum {n : Nat} (hn : n ≤ 63) (ψ : U64 → ℂ) {pattern : List Nat} (hl : pattern.length = n)
    (ins : U64 → U64) (hins : ∀ i, ins i = insertBits i (measuredOf 0 pattern)) :
    reduceSum ((2 ^ n) >>> (measuredOf 0 pattern).length) (fun i => readSq (2 ^ n) ψ (ins i)) =
      .ok (bornProb n ψ pattern) := by
  have hlen := measuredOf_length 0 pattern
  have hsort := measuredOf_sorted 0 pattern
  have hge := measuredOf_ge 0 pattern
  set l := measuredOf 0 pattern with hldef
  have hm : n = (n - l.length) + l.length := by omega
  have hsh : (2 ^ n) >>> l.length = 2 ^ (n - l.length) := by
    rw [Nat.shiftRight_eq_div_pow, Nat.pow_div (by omega) (by omega)]
  have hlt : ∀ q ∈ l, q.1 < n - l.length + l.length := fun q hq => by have := hge q hq; omega
  rw [hsh, reduceSum_ok (g := fun i => Complex.normSq (ψ (insertBits (BitVec.ofNat 64 i) l)))]
  · rw [insertBits_sum (by omega) hsort hlt (fun j => Complex.normSq (ψ j)), ← hm]
    unfold bornProb
    congr 1
    apply Finset.sum_congr rfl
    intro j _
    have := matches_iff pattern j
    by_cases h : Matches pattern j
    · rw [if_pos h, if_pos (this.2 h)]
    · rw [if_neg h, if_neg (fun h' => h (this.1 h'))]
  · intro i hi
    rw [hins]
    apply readSq_ok
    have := insertBits_lt (m := n - l.length) (by omega) hsort hlt (i := BitVec.ofNat 64 i)
      (by rw [toNat_ofNat_pow (by omega) hi]; exact hi)
    rwa [← hm] at this

theorem marginalProbability_eq {n : Nat} (hn : n ≤ 63) (ψ : U64 → ℂ) {pattern : List Nat} (hl : pattern.length = n)
    (hv : ∀ v ∈ pattern, v ≤ 2) : marginalProbability n ψ pattern = .ok (bornProb n ψ pattern) := by
  unfold marginalProbability
  rw [if_neg (by omega), measuredTargets_ok 0 pattern hv, ok_bind, List.length_map]
  exact marginalSum hn ψ hl _ (fun i => insertValues_eq i _)

theorem marginalProbability_batch {s : Batch} (hn : s.n ≤ 63) {pattern : List Nat} (hl : pattern.length = s.n)
    (hv : ∀ v ∈ pattern, v ≤ 2) :
    s.marginalProbability pattern = .ok ((List.range s.size).map fun b => bornProb s.n (s.raw b) pattern) := by
  unfold Batch.marginalProbability
  rw [if_neg (by omega), measuredTargets_ok 0 pattern hv, ok_bind, List.length_map]
  rw [perSlot_ok (g := fun b => bornProb s.n (s.raw b) pattern)]
  intro b _
  refine marginalSum hn (s.raw b) hl _ (fun i => insertValuesXor_eq i _ ?_)
  intro p hp
  have := measuredOf_ge 0 pattern p hp; omega

theorem marginalProbability_bad {n : Nat} (ψ : U64 → ℂ) {pattern : List Nat}
    (h : pattern.length ≠ n ∨ ∃ v ∈ pattern, 2 < v) : ∃ e, marginalProbability n ψ pattern = .error (.throw e) := by
  unfold marginalProbability
  by_cases hl : pattern.length ≠ n
  · rw [if_pos hl]; exact ⟨_, rfl⟩
  · rw [if_neg hl]
    obtain ⟨e, he⟩ := measuredTargets_bad 0 pattern (h.resolve_left hl)
    rw [he]; exact ⟨e, rfl⟩

theorem marginalProbability_bad_batch {s : Batch} {pattern : List Nat}
    (h : pattern.length ≠ s.n ∨ ∃ v ∈ pattern, 2 < v) : ∃ e, s.marginalProbability pattern = .error (.throw e) := by
  unfold Batch.marginalProbability
  by_cases hl : pattern.length ≠ s.n
  · rw [if_pos hl]; exact ⟨_, rfl⟩
  · rw [if_neg hl]
    obtain ⟨e, he⟩ := measuredTargets_bad 0 pattern (h.resolve_left hl)
    rw [he]; exact ⟨e, rfl⟩

/-! ## the Born rule is a probability distribution -/

theorem bornProb_nonneg (n : Nat) (ψ : U64 → ℂ) (pattern : List Nat) : 0 ≤ bornProb n ψ pattern := by
  apply Finset.sum_nonneg
  intro j _
  split
  · exact Complex.normSq_nonneg _
  · exact le_refl _

theorem bornProb_le (n : Nat) (ψ : U64 → ℂ) (pattern : List Nat) : bornProb n ψ pattern ≤ normSq (2 ^ n) ψ := by
  apply Finset.sum_le_sum
  intro j _
  split
  · exact le_refl _
  · exact Complex.normSq_nonneg _

theorem bitProb_nonneg (n : Nat) (ψ : U64 → ℂ) (q : Nat) (b : Bool) : 0 ≤ bitProb n ψ q b := by
  apply Finset.sum_nonneg
  intro j _
  split
  · exact Complex.normSq_nonneg _
  · exact le_refl _

theorem bitProb_le (n : Nat) (ψ : U64 → ℂ) (q : Nat) (b : Bool) : bitProb n ψ q b ≤ normSq (2 ^ n) ψ := by
  apply Finset.sum_le_sum
  intro j _
  split
  · exact le_refl _
  · exact Complex.normSq_nonneg _

theorem bitProb_add (n : Nat) (ψ : U64 → ℂ) (q : Nat) : bitProb n ψ q false + bitProb n ψ q true = normSq (2 ^ n) ψ := by
  unfold bitProb normSq
  rw [← Finset.sum_add_distrib]
  apply Finset.sum_congr rfl
  intro j _
  cases j.getLsbD q <;> simp

theorem matches_patternOf {n : Nat} {ts : List Nat} (hnd : ts.Nodup) (hlt : ∀ q ∈ ts, q < n) {x : Nat}
    (hx : x < 2 ^ ts.length) (j : U64) : Matches (patternOf n ts x) j ↔ getBits j ts = x := by
  have hget : ∀ q, (patternOf n ts x)[q]? =
      if q < n then some (if q ∈ ts then (x.testBit (ts.idxOf q)).toNat else 2) else none := by
    intro q
    unfold patternOf
    by_cases h : q < n
    · simp [h]
    · simp [h]
  have hidx : ∀ k (hk : k < ts.length), ts.idxOf ts[k] = k := fun k hk => hnd.idxOf_getElem k hk
  constructor
  · intro h
    apply Nat.eq_of_testBit_eq
    intro k
    rw [testBit_getBits]
    by_cases hk : k < ts.length
    · rw [List.getElem?_eq_getElem hk]
      refine h _ _ ?_
      rw [hget, if_pos (hlt _ (List.getElem_mem hk)), if_pos (List.getElem_mem hk), hidx k hk]
    · rw [List.getElem?_eq_none (by omega)]
      exact (Nat.testBit_lt_two_pow (lt_of_lt_of_le hx (Nat.pow_le_pow_right (by omega) (by omega)))).symm
  · rintro rfl q b hq
    rw [hget] at hq
    split at hq
    · split at hq
      · rename_i hmem
        obtain ⟨k, hk, rfl⟩ := List.getElem_of_mem hmem
        rw [hidx k hk, testBit_getBits, List.getElem?_eq_getElem hk] at hq
        dsimp only at hq
        revert hq
        cases j.getLsbD ts[k] <;> cases b <;> simp
      · cases b <;> simp at hq
    · cases hq

theorem bornProb_sum {n : Nat} {ts : List Nat} (hnd : ts.Nodup) (hlt : ∀ q ∈ ts, q < n) (ψ : U64 → ℂ) :
    ∑ x ∈ Finset.range (2 ^ ts.length), bornProb n ψ (patternOf n ts x) = normSq (2 ^ n) ψ := by
  unfold bornProb normSq
  rw [Finset.sum_comm]
  apply Finset.sum_congr rfl
  intro j _
  rw [Finset.sum_eq_single (getBits j ts)]
  · rw [if_pos ((matches_patternOf hnd hlt (getBits_lt j ts) j).2 rfl)]
  · intro x hx hne
    rw [if_neg (fun h => hne ((matches_patternOf hnd hlt (Finset.mem_range.1 hx) j).1 h).symm)]
  · intro h; exact absurd (Finset.mem_range.2 (getBits_lt j ts)) h

end Verif.Proofs
