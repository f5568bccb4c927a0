import Verif.Proofs.SharingCmd

/-! # Gates on handles -/

namespace Verif.Proofs
open Verif Verif.Model Verif.Spec

attribute [-simp] BitVec.getLsbD_eq_getElem

variable {L ms : Nat} {junk : Nat → Nat → ℂ} {w : World} {s : Store} {ρ : Nat → Addr}

theorem build_swaps {d : GateDesc} {g : UGate} (hs : ¬ SmallMatrix d) (h : d.build = .ok g) : g.swapsBuffer = true := by
  cases d with
  | dense ts M cs vs u =>
    obtain ⟨g, hg, h⟩ := bind_ok h
    cases h
    obtain ⟨-, -, -, hr, hc, -⟩ := mkDense_ok hg
    have h3 : 3 ≤ ts.length := by
      have : ¬ ts.length ≤ 2 := hs
      omega
    have h8 : 2 ^ 3 ≤ 2 ^ ts.length := Nat.pow_le_pow_right (by decide) h3
    unfold UGate.swapsBuffer
    dsimp only
    rw [hr, hc]
    generalize 2 ^ ts.length = k at h8
    have h1 : (k == 1) = false := by simp; omega
    have h2 : (k == 2) = false := by simp; omega
    have h4 : (k == 4) = false := by simp; omega
    simp [h1, h2, h4]
  | sparse ts M cs vs =>
    obtain ⟨g, hg, h⟩ := bind_ok h
    cases h
    rfl
  | _ => exact absurd trivial hs

/-! ## reading and writing regions -/

theorem vecAt_read {h : Heap} (H : HeapRel h s ρ) {c : Nat} (hc : c < s.cells) : (vecAt s ρ c).read h = s.val c := by
  funext j
  unfold SVec.read
  by_cases hj : j.toNat < 2 ^ s.qubits c
  · rw [if_pos (show j.toNat < (vecAt s ρ c).dim from hj)]
    refine (H.vals c hc _ hj).trans ?_
    congr 1
    simp
  · rw [if_neg (show ¬ j.toNat < (vecAt s ρ c).dim from hj), H.zero c hc j hj]

theorem vecAt_write {h : Heap} (H : HeapRel h s ρ) {c : Nat} (hc : c < s.cells) (φ : U64 → ℂ)
    (hz : ∀ j : U64, ¬ j.toNat < 2 ^ s.qubits c → φ j = 0) : HeapRel ((vecAt s ρ c).write h φ) (s.set c φ) ρ := by
  refine H.update _ _ ?_ ?_
  · intro d hd j hj
    by_cases e : d = c
    · subst e; simpa using hz j hj
    · simpa [Function.update_of_ne e] using H.zero d hd j hj
  · intro d hd i hi
    by_cases e : d = c
    · subst e
      rw [if_pos (by refine ⟨rfl, ?_, ?_⟩ <;> simp [place, vecAt, hi])]
      simp [place, vecAt]
    · rw [Function.update_of_ne e, ← H.vals d hd i hi, if_neg]
      rintro ⟨h1, h2, h3⟩
      refine e (H.apart d c i ((place (ρ d) i).2 - (ρ c).2) hd hc hi h3 ?_)
      refine Prod.ext h1 ?_
      show _ = (ρ c).2 + ((place (ρ d) i).2 - (ρ c).2)
      have : (ρ c).2 ≤ (place (ρ d) i).2 := h2
      omega

theorem shiftRight_toNat (j : U64) (n : Nat) : (j >>> n).toNat = j.toNat / 2 ^ n := by
  rw [BitVec.toNat_ushiftRight, Nat.shiftRight_eq_div_pow]

theorem and_mask_toNat (j : U64) {n : Nat} (hn : n < 64) : (j &&& BitVec.ofNat 64 (2 ^ n - 1)).toNat = j.toNat % 2 ^ n := by
  have hp : (2 : Nat) ^ n < 2 ^ 64 := Nat.pow_lt_pow_right (by decide) hn
  rw [BitVec.toNat_and, BitVec.toNat_ofNat, Nat.mod_eq_of_lt (by omega), Nat.and_two_pow_sub_one_eq_mod]

theorem batAt_read {n : Nat} {cs : List Nat} {X : SBat} {h : Heap} (H : HeapRel h s ρ) (hX : BatAt ms s ρ n cs X) {b : Nat} (hb : b < cs.length) :
    slotOf n b (X.read h) = s.val cs[b] := by
  have hc := hX.cell b hb
  funext j
  unfold slotOf
  by_cases hj : j.toNat < 2 ^ n
  · rw [if_pos hj]
    unfold SBat.read
    have hlt : b * 2 ^ n + j.toNat < cs.length * 2 ^ n := by
      have := Nat.mul_le_mul_right (2 ^ n) (show b + 1 ≤ cs.length from hb)
      rw [Nat.succ_mul] at this
      omega
    have h1 := toNat_ofNat_small (lt_of_lt_of_le hlt hX.fits)
    have h2 : (b * 2 ^ n + j.toNat) / 2 ^ n = b := by
      rw [Nat.mul_comm, Nat.mul_add_div (Nat.two_pow_pos n), Nat.div_eq_of_lt hj, Nat.add_zero]
    have h3 : (b * 2 ^ n + j.toNat) % 2 ^ n = j.toNat := by
      rw [Nat.mul_comm, Nat.mul_add_mod, Nat.mod_eq_of_lt hj]
    rw [hX.size, hX.dim, hX.qubits, shiftRight_toNat, and_mask_toNat _ hX.small, h1, if_pos hlt, h2, h3, hX.addr hb]
    rw [H.vals _ hc.1 _ (hc.2.1.symm ▸ hj)]
    congr 1
    simp
  · rw [if_neg hj, H.zero _ hc.1 j (hc.2.1.symm ▸ hj)]

theorem batAt_write {n : Nat} {cs : List Nat} {X : SBat} {h : Heap} (H : HeapRel h s ρ) (hX : BatAt ms s ρ n cs X) (φ : U64 → ℂ)
    (F : Nat → (U64 → ℂ) → U64 → ℂ) (hz : ∀ b (hb : b < cs.length), ∀ j : U64, ¬ j.toNat < 2 ^ n → F b (s.val cs[b]) j = 0)
    (hv : ∀ b (hb : b < cs.length), ∀ i, i < 2 ^ n → φ (BitVec.ofNat 64 (b * 2 ^ n + i)) = F b (s.val cs[b]) (BitVec.ofNat 64 i)) :
    HeapRel (X.write h φ) (s.setMany cs F) ρ := by
  have hst : 2 ^ n ≤ X.stride := by rw [hX.stride]; exact le_rowStride ms _
  refine H.update _ _ ?_ ?_
  · intro d hd j hj
    split
    · next hmem =>
      obtain ⟨b, hb, rfl⟩ := List.mem_iff_getElem.mp hmem
      rw [hX.idxOf hb]
      exact hz b hb j ((hX.cell b hb).2.1 ▸ hj)
    · exact H.zero d hd j hj
  · intro d hd i hi
    by_cases hmem : d ∈ cs
    · rw [if_pos hmem]
      obtain ⟨b, hb, rfl⟩ := List.mem_iff_getElem.mp hmem
      have hq := (hX.cell b hb).2.1
      rw [hq] at hi
      have h2 : (b * X.stride + i) / X.stride = b := by
        rw [Nat.mul_comm, Nat.mul_add_div hX.stride_pos, Nat.div_eq_of_lt (by omega), Nat.add_zero]
      have h3 : (b * X.stride + i) % X.stride = i := by
        rw [Nat.mul_comm, Nat.mul_add_mod, Nat.mod_eq_of_lt (by omega)]
      rw [hX.idxOf hb, ← hX.addr hb]
      simp only [SBat.addr, h2, h3]
      rw [if_pos ⟨trivial, hX.size.symm ▸ hb, hX.dim.symm ▸ hi⟩, hX.dim]
      exact hv b hb i hi
    · rw [if_neg hmem, ← H.vals d hd i hi, if_neg]
      rintro ⟨h1, h2, h3⟩
      rw [hX.size] at h2
      rw [hX.dim] at h3
      have hc := hX.cell _ h2
      have := H.apart d _ i ((place (ρ d) i).2 % X.stride) hd hc.1 hi (hc.2.1.symm ▸ h3) (by
        rw [hc.2.2]
        refine Prod.ext h1 ?_
        show _ = (place (ρ d) i).2 / X.stride * X.stride + (place (ρ d) i).2 % X.stride
        rw [Nat.mul_comm, Nat.div_add_mod])
      exact hmem (this ▸ List.getElem_mem _)

/-! ## gates -/

theorem gateVec_done (R : Pictures ms w s ρ) (hL : LanesOK L) {x : String} {c : Nat} (hc : c < s.cells) {d : GateDesc} {g : UGate}
    (hd : DescOK d) (hg : d.build = .ok g) (hq : ∀ q ∈ qubitsOf d, q < s.qubits c) :
    (SmallMatrix d → Done ms (GateOnVec L junk w x (vecAt s ρ c) d) (s.set c (onState (2 ^ s.qubits c) (operatorOf d) (s.val c)))) ∧
    (¬ SmallMatrix d → Done ms (GateOnVec L junk w x (vecAt s ρ c) d)
      (s.fresh x (s.qubits c) (onState (2 ^ s.qubits c) (operatorOf d) (s.val c)))) := by
  have hn := R.heap.small c hc
  have hp : (2 : Nat) ^ s.qubits c < 2 ^ 64 := R.heap.pow_lt hc
  obtain ⟨dev, hu, hr⟩ := build_update hd hg (B := 1) hL hn (by omega) hq
  have hr := hr (s.val c)
  have hz : ∀ j : U64, ¬ j.toNat < 2 ^ s.qubits c → onState (2 ^ s.qubits c) (operatorOf d) (s.val c) j = 0 := by
    intro j hj
    unfold onState
    rw [if_neg hj, R.heap.zero c hc j hj]
  have h1 : onState (1 * 2 ^ s.qubits c) (operatorOf d) (s.val c) = onState (2 ^ s.qubits c) (operatorOf d) (s.val c) := by rw [Nat.one_mul]
  rw [h1] at hr
  have hu' : g.update L 1 (vecAt s ρ c).n = .ok dev := hu
  constructor
  · intro hs
    have hsw := build_inPlace hs hg
    refine ⟨_, ρ, R.reheap (vecAt_write R.heap hc _ hz), fun w' f => ?_⟩
    unfold GateOnVec
    simp only [hg, hu', vecAt_read R.heap hc, hsw, Bool.false_eq_true, if_false]
    constructor
    · rintro ⟨φ, h1, rfl, rfl⟩
      rw [h1.unique hr]
      exact ⟨rfl, rfl⟩
    · rintro ⟨rfl, rfl⟩
      exact ⟨_, hr, rfl, rfl⟩
  · intro hs
    have hsw := build_swaps hs hg
    have H := alloc_vec R.heap junk x hn
    have hcell : s.cells < (s.fresh x (s.qubits c) fun j => if j.toNat < 2 ^ s.qubits c then junk w.heap.next j.toNat else 0).cells := by
      simp [Store.fresh]
    have hqq : (s.fresh x (s.qubits c) fun j => if j.toNat < 2 ^ s.qubits c then junk w.heap.next j.toNat else 0).qubits s.cells = s.qubits c := by
      simp [Store.fresh]
    have H2 := vecAt_write H hcell (onState (2 ^ s.qubits c) (operatorOf d) (s.val c)) (by rw [hqq]; exact hz)
    have hv : vecAt (s.fresh x (s.qubits c) fun j => if j.toNat < 2 ^ s.qubits c then junk w.heap.next j.toNat else 0)
        (Function.update ρ s.cells (w.heap.next, 0)) s.cells = ⟨s.qubits c, 2 ^ s.qubits c, w.heap.next, 0⟩ := by
      unfold vecAt
      rw [hqq, Function.update_self]
    rw [fresh_set, hv] at H2
    refine ⟨_, _, R.names_fresh x _ H2, fun w' f => ?_⟩
    have hui : uninitVec junk w.heap (vecAt s ρ c).n = .ok (w.heap.alloc junk (2 ^ s.qubits c), ⟨s.qubits c, 2 ^ s.qubits c, w.heap.next, 0⟩) := by
      unfold uninitVec
      rw [if_neg (by show ¬ s.qubits c ≥ 64; omega)]
      rfl
    unfold GateOnVec
    simp only [hg, hu', vecAt_read R.heap hc, hsw, if_true, hui]
    constructor
    · rintro ⟨φ, h1, rfl, rfl⟩
      rw [h1.unique hr]
      exact ⟨rfl, rfl⟩
    · rintro ⟨rfl, rfl⟩
      exact ⟨_, hr, rfl, rfl⟩

theorem gateBat_done (R : Pictures ms w s ρ) (hL : LanesOK L) {x : String} {n : Nat} {cs : List Nat} {X : SBat} (hX : BatAt ms s ρ n cs X)
    {d : GateDesc} {g : UGate} (hd : DescOK d) (hg : d.build = .ok g) (hq : ∀ q ∈ qubitsOf d, q < n) :
    (SmallMatrix d → Done ms (GateOnBat L ms junk w x X d) (s.setMany cs fun _ v => onState (2 ^ n) (operatorOf d) v)) ∧
    (¬ SmallMatrix d → Done ms (GateOnBat L ms junk w x X d)
      (s.freshBatch x cs.length n fun b => onState (2 ^ n) (operatorOf d) (s.cellAt cs b))) := by
  obtain ⟨dev, hu, hr⟩ := build_update hd hg (B := cs.length) hL hX.small hX.fits hq
  have hr := hr (X.read w.heap)
  have hu' : g.update L X.size X.n = .ok dev := by rw [hX.size, hX.qubits]; exact hu
  generalize hΦ : onState (cs.length * 2 ^ n) (operatorOf d) (X.read w.heap) = Φ at hr
  have hr' : DRuns (X.size * 2 ^ X.n) dev (X.read w.heap) Φ := by rw [hX.size, hX.qubits]; exact hr
  have hz : ∀ b (hb : b < cs.length), ∀ j : U64, ¬ j.toNat < 2 ^ n → onState (2 ^ n) (operatorOf d) (s.val cs[b]) j = 0 := by
    intro b hb j hj
    unfold onState
    rw [if_neg hj, hX.zero R.heap hb j hj]
  have hv : ∀ b (hb : b < cs.length), ∀ i, i < 2 ^ n →
      Φ (BitVec.ofNat 64 (b * 2 ^ n + i)) = onState (2 ^ n) (operatorOf d) (s.val cs[b]) (BitVec.ofNat 64 i) := by
    intro b hb i hi
    rw [← hΦ, gate_slots hd hg hX.fits hq]
    have hlt : b * 2 ^ n + i < cs.length * 2 ^ n := by
      have := Nat.mul_le_mul_right (2 ^ n) (show b + 1 ≤ cs.length from hb)
      rw [Nat.succ_mul] at this
      omega
    have h1 := toNat_ofNat_small (lt_of_lt_of_le hlt hX.fits)
    have h2 : (b * 2 ^ n + i) / 2 ^ n = b := by
      rw [Nat.mul_comm, Nat.mul_add_div (Nat.two_pow_pos n), Nat.div_eq_of_lt hi, Nat.add_zero]
    have h3 : (b * 2 ^ n + i) % 2 ^ n = i := by
      rw [Nat.mul_comm, Nat.mul_add_mod, Nat.mod_eq_of_lt hi]
    unfold ofSlots
    rw [h1, if_pos hlt, h2, h3]
    dsimp only
    rw [batAt_read R.heap hX hb]
  constructor
  · intro hs
    have hsw := build_inPlace hs hg
    refine ⟨_, ρ, R.reheap (batAt_write R.heap hX Φ (fun _ v => onState (2 ^ n) (operatorOf d) v) hz hv), fun w' f => ?_⟩
    unfold GateOnBat
    simp only [hg, hu', hsw, Bool.false_eq_true, if_false]
    constructor
    · rintro ⟨φ, h1, rfl, rfl⟩
      rw [h1.unique hr']
      exact ⟨rfl, rfl⟩
    · rintro ⟨rfl, rfl⟩
      exact ⟨_, hr', rfl, rfl⟩
  · intro hs
    have hsw := build_swaps hs hg
    have H := alloc_bat R.heap ms junk x (B := cs.length) hX.small
    generalize (fun (b : Nat) (j : U64) => if j.toNat < 2 ^ n then junk w.heap.next (b * rowStride ms (2 ^ n) + j.toNat) else 0) = u0 at H
    have hY := batAt_fresh (ms := ms) s ρ x cs.length n w.heap.next u0 hX.small hX.fits
    have h2 := batAt_write H hY Φ (fun b _ => onState (2 ^ n) (operatorOf d) (s.cellAt cs b)) ?_ ?_
    · have h3 := freshBatch_rel h2
      refine ⟨_, _, R.names_freshBatch x hX.small hX.fits _ h3, fun w' f => ?_⟩
      have hui : uninitBat ms junk w.heap X.size X.n =
          .ok (w.heap.alloc junk (cs.length * rowStride ms (2 ^ n)), ⟨cs.length, n, 2 ^ n, w.heap.next, rowStride ms (2 ^ n)⟩) := by
        unfold uninitBat
        rw [hX.qubits, hX.size, if_neg (by have := hX.small; omega)]
      unfold GateOnBat
      simp only [hg, hu', hsw, if_true, hui]
      constructor
      · rintro ⟨φ, h1, rfl, rfl⟩
        rw [h1.unique hr']
        exact ⟨rfl, rfl⟩
      · rintro ⟨rfl, rfl⟩
        exact ⟨_, hr', rfl, rfl⟩
    · intro b hb j hj
      have hb' : b < cs.length := by simpa using hb
      rw [cellAt_eq hb']
      exact hz b hb' j hj
    · intro b hb i hi
      have hb' : b < cs.length := by simpa using hb
      rw [cellAt_eq hb']
      exact hv b hb' i hi

end Verif.Proofs
