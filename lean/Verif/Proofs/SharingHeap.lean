import Verif.Model.Handle

/-! # Memory regions of cells -/

namespace Verif.Proofs
open Verif Verif.Model Verif.Spec

attribute [-simp] BitVec.getLsbD_eq_getElem

/-- word `i` of the region that starts at `p` -/
def place (p : Addr) (i : Nat) : Addr := (p.1, p.2 + i)

/-- the memory holds the cells of `s`; `ρ c` is where cell `c` begins -/
structure HeapRel (h : Heap) (s : Store) (ρ : Nat → Addr) : Prop where
  inside : ∀ c, c < s.cells → (ρ c).1 < h.next ∧ (ρ c).2 + 2 ^ s.qubits c ≤ h.size (ρ c).1
  apart : ∀ c d i j, c < s.cells → d < s.cells → i < 2 ^ s.qubits c → j < 2 ^ s.qubits d → place (ρ c) i = place (ρ d) j → c = d
  small : ∀ c, c < s.cells → s.qubits c < 64
  zero : ∀ c, c < s.cells → ∀ j : U64, ¬ j.toNat < 2 ^ s.qubits c → s.val c j = 0
  vals : ∀ c, c < s.cells → ∀ i, i < 2 ^ s.qubits c → h.cell (place (ρ c) i) = s.val c (BitVec.ofNat 64 i)

theorem place_inj {p : Addr} {i j : Nat} (h : place p i = place p j) : i = j := by
  simp only [place, Prod.mk.injEq] at h; omega

theorem HeapRel.valid {h s ρ} (H : HeapRel h s ρ) {c i : Nat} (hc : c < s.cells) (hi : i < 2 ^ s.qubits c) : h.Valid (place (ρ c) i) := by
  obtain ⟨h1, h2⟩ := H.inside c hc
  refine ⟨h1, ?_⟩
  simp only [place]; omega

theorem HeapRel.pow_lt {h s ρ} (H : HeapRel h s ρ) {c : Nat} (hc : c < s.cells) : 2 ^ s.qubits c < 2 ^ 64 :=
  Nat.pow_lt_pow_right (by decide) (H.small c hc)

theorem heapRuns_iff {ι : Type} [DecidableEq ι] [Finite ι] (ok : Addr → Prop) (h : Heap) (pool : Pool ι Addr ℂ) (dst : ι → Addr)
    (inj : Function.Injective dst) (hok : ∀ k, h.Valid (dst k) ∧ ok (dst k))
    (hw : ∀ k, (pool k).Within2 (fun a => a = dst k) (fun a => (h.Valid a ∧ ok a) ∧ ∀ k', a ≠ dst k')) :
    ∃ m', (∀ h', HeapRuns ok h pool h' ↔ h' = ⟨h.next, h.size, m'⟩) ∧ (∀ k, m' (dst k) = (pool k).exec h.cell (dst k)) ∧
      ∀ a, (∀ k, a ≠ dst k) → m' a = h.cell a := by
  classical
  let m' : Addr → ℂ := fun a => if e : ∃ k, a = dst k then (pool e.choose).exec h.cell a else h.cell a
  have m1 : ∀ k, m' (dst k) = (pool k).exec h.cell (dst k) := by
    intro k
    have e : ∃ k', dst k = dst k' := ⟨k, rfl⟩
    have e' : m' (dst k) = (pool e.choose).exec h.cell (dst k) := dif_pos e
    rw [e', ← inj e.choose_spec]
  have m2 : ∀ a, (∀ k, a ≠ dst k) → m' a = h.cell a := by
    intro a ha
    exact dif_neg (by rintro ⟨k, e⟩; exact ha k e)
  have hr : Runs (fun a => h.Valid a ∧ ok a) pool h.cell m' := by
    refine runs_of_shared _ pool h.cell m' (fun k a => a = dst k) (fun a => (h.Valid a ∧ ok a) ∧ ∀ k', a ≠ dst k') ?_ ?_ ?_ ?_ hw ?_ ?_
    · intro i j a h1 h2; exact inj (h1.symm.trans h2)
    · rintro i a rfl h2; exact h2.2 i rfl
    · rintro i a rfl; exact hok i
    · intro a ha; exact ha.1
    · rintro i a rfl; exact m1 i
    · intro a ha; exact m2 a fun k => ha k
  refine ⟨m', fun h' => ⟨?_, ?_⟩, m1, m2⟩
  · rintro ⟨h1, h2, h3⟩
    cases h'
    simp only at h1 h2 h3
    rw [h2, h3, Runs.unique h1 hr]
  · rintro rfl
    exact ⟨hr, rfl, rfl⟩

/-- changing the values of cells -/
theorem HeapRel.update {h s ρ} (H : HeapRel h s ρ) (m' : Addr → ℂ) (val : Nat → U64 → ℂ)
    (hz : ∀ c, c < s.cells → ∀ j : U64, ¬ j.toNat < 2 ^ s.qubits c → val c j = 0)
    (hv : ∀ c, c < s.cells → ∀ i, i < 2 ^ s.qubits c → m' (place (ρ c) i) = val c (BitVec.ofNat 64 i)) :
    HeapRel ⟨h.next, h.size, m'⟩ { s with val := val } ρ :=
  ⟨H.inside, H.apart, H.small, hz, hv⟩

/-- the handle of cell `c` -/
def vecAt (s : Store) (ρ : Nat → Addr) (c : Nat) : SVec := ⟨s.qubits c, 2 ^ s.qubits c, (ρ c).1, (ρ c).2⟩

/-- a kernel that writes one cell -/
theorem vec_kernel {h s ρ} (H : HeapRel h s ρ) {c : Nat} (hc : c < s.cells) {D : Nat} (hD : D = 2 ^ s.qubits c) (pool : Pool (Fin D) Addr ℂ)
    (ok : Addr → Prop) (hok : ∀ i, i < 2 ^ s.qubits c → ok (place (ρ c) i)) (v : U64 → ℂ)
    (hw : ∀ i : Fin D, (pool i).Within2 (fun a => a = place (ρ c) i) (fun a => (h.Valid a ∧ ok a) ∧ ∀ k : Fin D, a ≠ place (ρ c) k))
    (hz : ∀ j : U64, ¬ j.toNat < 2 ^ s.qubits c → v j = 0)
    (he : ∀ i : Fin D, (pool i).exec h.cell (place (ρ c) i) = v (BitVec.ofNat 64 i)) :
    ∃ h0, (∀ h', HeapRuns ok h pool h' ↔ h' = h0) ∧ HeapRel h0 (s.set c v) ρ := by
  subst hD
  obtain ⟨m', h1, h2, h3⟩ := heapRuns_iff ok h pool (fun k => place (ρ c) k) (fun i j e => Fin.ext (place_inj e))
    (fun k => ⟨H.valid hc k.2, hok k k.2⟩) hw
  refine ⟨_, h1, H.update m' _ ?_ ?_⟩
  · intro d hd j hj
    by_cases e : d = c
    · subst e; simpa using hz j hj
    · simpa [Function.update_of_ne e] using H.zero d hd j hj
  · intro d hd i hi
    by_cases e : d = c
    · subst e
      have := h2 ⟨i, hi⟩
      simp only at this
      rw [this, he ⟨i, hi⟩]
      simp
    · rw [h3 _ (fun k e' => e (H.apart d c i k hd hc hi k.2 e')), H.vals d hd i hi]
      simp [Function.update_of_ne e]

/-- `X` is the handle of the batch with cells `cs` -/
structure BatAt (ms : Nat) (s : Store) (ρ : Nat → Addr) (n : Nat) (cs : List Nat) (X : SBat) : Prop where
  size : X.size = cs.length
  qubits : X.n = n
  dim : X.dim = 2 ^ n
  stride : X.stride = rowStride ms (2 ^ n)
  small : n < 64
  fits : cs.length * 2 ^ n ≤ 2 ^ 64
  cell : ∀ b (hb : b < cs.length), cs[b] < s.cells ∧ s.qubits cs[b] = n ∧ ρ cs[b] = (X.buf, b * X.stride)

theorem le_rowStride (ms d : Nat) : d ≤ rowStride ms d := Nat.le_max_left _ _

theorem BatAt.stride_pos {ms s ρ n cs X} (hX : BatAt ms s ρ n cs X) : 0 < X.stride := by
  rw [hX.stride]
  exact lt_of_lt_of_le (Nat.two_pow_pos n) (le_rowStride ms _)

theorem BatAt.addr {ms s ρ n cs X} (hX : BatAt ms s ρ n cs X) {b : Nat} (hb : b < cs.length) (i : Nat) :
    X.addr b i = place (ρ cs[b]) i := by
  rw [(hX.cell b hb).2.2]; rfl

theorem BatAt.inj {ms s ρ n cs X} (hX : BatAt ms s ρ n cs X) {b b' : Nat} (hb : b < cs.length) (hb' : b' < cs.length)
    (e : cs[b] = cs[b']) : b = b' := by
  have h1 := (hX.cell b hb).2.2
  have h2 := (hX.cell b' hb').2.2
  rw [e, h2] at h1
  simp only [Prod.mk.injEq, true_and] at h1
  exact (Nat.eq_of_mul_eq_mul_right hX.stride_pos h1).symm

theorem BatAt.nodup {ms s ρ n cs X} (hX : BatAt ms s ρ n cs X) : cs.Nodup := by
  rw [List.nodup_iff_injective_get]
  intro a b e
  exact Fin.ext (hX.inj a.2 b.2 e)

theorem BatAt.idxOf {ms s ρ n cs X} (hX : BatAt ms s ρ n cs X) {b : Nat} (hb : b < cs.length) : cs.idxOf cs[b] = b :=
  hX.nodup.idxOf_getElem b hb

/-- two batches with the same number of qubits: a common cell is at the same position -/
theorem BatAt.same {ms s ρ n cs ds X Y} (hX : BatAt ms s ρ n cs X) (hY : BatAt ms s ρ n ds Y) {b b' : Nat} (hb : b < cs.length)
    (hb' : b' < ds.length) (e : cs[b] = ds[b']) : b = b' := by
  have h1 := (hX.cell b hb).2.2
  have h2 := (hY.cell b' hb').2.2
  rw [e, h2] at h1
  simp only [Prod.mk.injEq] at h1
  have h3 := h1.2
  rw [hY.stride, ← hX.stride] at h3
  exact (Nat.eq_of_mul_eq_mul_right hX.stride_pos h3).symm

/-- a kernel that writes all cells of a batch -/
theorem bat_kernel {ms h s ρ n cs X} (H : HeapRel h s ρ) (hX : BatAt ms s ρ n cs X) {B D : Nat} (hB : B = cs.length) (hD : D = 2 ^ n)
    (pool : Pool (Fin B × Fin D) Addr ℂ)
    (ok : Addr → Prop) (hok : ∀ b i, b < cs.length → i < 2 ^ n → ok (X.addr b i)) (F : Nat → (U64 → ℂ) → U64 → ℂ)
    (hw : ∀ k : Fin B × Fin D, (pool k).Within2 (fun a => a = X.addr k.1 k.2)
      (fun a => (h.Valid a ∧ ok a) ∧ ∀ k : Fin B × Fin D, a ≠ X.addr k.1 k.2))
    (hz : ∀ b (hb : b < cs.length), ∀ j : U64, ¬ j.toNat < 2 ^ n → F b (s.val cs[b]) j = 0)
    (he : ∀ b (hb : b < cs.length), ∀ i (hi : i < 2 ^ n),
      (pool (⟨b, hB ▸ hb⟩, ⟨i, hD ▸ hi⟩)).exec h.cell (X.addr b i) = F b (s.val cs[b]) (BitVec.ofNat 64 i)) :
    ∃ h0, (∀ h', HeapRuns ok h pool h' ↔ h' = h0) ∧ HeapRel h0 (s.setMany cs F) ρ := by
  subst hB hD
  have hinj : Function.Injective (fun k : Fin cs.length × Fin (2 ^ n) => X.addr k.1 k.2) := by
    intro k k' e
    simp only [hX.addr k.1.2, hX.addr k'.1.2] at e
    have hc := hX.cell k.1 k.1.2
    have hc' := hX.cell k'.1 k'.1.2
    have := H.apart _ _ k.2 k'.2 hc.1 hc'.1 (hc.2.1.symm ▸ k.2.2) (hc'.2.1.symm ▸ k'.2.2) e
    have h1 := hX.inj k.1.2 k'.1.2 this
    have h1' : k.1 = k'.1 := Fin.ext h1
    rw [this] at e
    exact Prod.ext h1' (Fin.ext (place_inj e))
  obtain ⟨m', h1, h2, h3⟩ := heapRuns_iff ok h pool (fun k => X.addr k.1 k.2) hinj
    (fun k => ⟨by
      have hc := hX.cell k.1 k.1.2
      rw [hX.addr k.1.2]
      exact H.valid hc.1 (hc.2.1.symm ▸ k.2.2), hok _ _ k.1.2 k.2.2⟩) hw
  refine ⟨_, h1, H.update m' _ ?_ ?_⟩
  · intro d hd j hj
    split
    · next hmem =>
      obtain ⟨b, hb, rfl⟩ := List.mem_iff_getElem.mp hmem
      rw [hX.idxOf hb]
      exact hz b hb j ((hX.cell b hb).2.1 ▸ hj)
    · exact H.zero d hd j hj
  · intro d hd i hi
    split
    · next hmem =>
      obtain ⟨b, hb, rfl⟩ := List.mem_iff_getElem.mp hmem
      have hq := (hX.cell b hb).2.1
      rw [hq] at hi
      rw [hX.idxOf hb, ← hX.addr hb]
      have := h2 (⟨b, hb⟩, ⟨i, hi⟩)
      simp only at this
      rw [this]
      exact he b hb i hi
    · next hmem =>
      rw [h3 _ ?_, H.vals d hd i hi]
      intro k e
      rw [hX.addr k.1.2] at e
      have hc := hX.cell k.1 k.1.2
      have := H.apart _ _ i k.2 hd hc.1 hi (hc.2.1.symm ▸ k.2.2) e
      exact hmem (this ▸ List.getElem_mem _)

/-! ## allocation -/

theorem alloc_vec {h s ρ} (H : HeapRel h s ρ) (junk : Nat → Nat → ℂ) (x : String) {n : Nat} (hn : n < 64) :
    HeapRel (h.alloc junk (2 ^ n)) (s.fresh x n fun j => if j.toNat < 2 ^ n then junk h.next j.toNat else 0)
      (Function.update ρ s.cells (h.next, 0)) := by
  have old : ∀ c, c < s.cells + 1 → c ≠ s.cells → c < s.cells := fun c h1 h2 => by omega
  have hp : (2 : Nat) ^ n < 2 ^ 64 := Nat.pow_lt_pow_right (by decide) hn
  constructor
  · intro c hc
    by_cases e : c = s.cells
    · subst e
      simp [Store.fresh, Heap.alloc]
    · have := H.inside c (old c hc e)
      simp only [Store.fresh, Heap.alloc, Function.update_of_ne e]
      rw [Function.update_of_ne (by omega)]
      exact ⟨by omega, this.2⟩
  · intro c d i j hc hd hi hj e
    by_cases e1 : c = s.cells <;> by_cases e2 : d = s.cells
    · omega
    · subst e1
      have := H.inside d (old d hd e2)
      simp only [Function.update_self, Function.update_of_ne e2, place, Prod.mk.injEq] at e
      omega
    · subst e2
      have := H.inside c (old c hc e1)
      simp only [Function.update_self, Function.update_of_ne e1, place, Prod.mk.injEq] at e
      omega
    · simp only [Store.fresh, Function.update_of_ne e1, Function.update_of_ne e2] at hi hj e
      exact H.apart c d i j (old c hc e1) (old d hd e2) hi hj e
  · intro c hc
    by_cases e : c = s.cells
    · subst e; simpa [Store.fresh] using hn
    · simpa [Store.fresh, Function.update_of_ne e] using H.small c (old c hc e)
  · intro c hc j hj
    by_cases e : c = s.cells
    · subst e
      simp only [Store.fresh, Function.update_self] at hj ⊢
      exact if_neg hj
    · simp only [Store.fresh, Function.update_of_ne e] at hj ⊢
      exact H.zero c (old c hc e) j hj
  · intro c hc i hi
    by_cases e : c = s.cells
    · subst e
      simp only [Store.fresh, Function.update_self] at hi ⊢
      have hi' : (BitVec.ofNat 64 i).toNat = i := by rw [BitVec.toNat_ofNat]; exact Nat.mod_eq_of_lt (by omega)
      simp [Heap.alloc, place, hi', hi]
    · simp only [Store.fresh, Function.update_of_ne e] at hi ⊢
      have := H.inside c (old c hc e)
      rw [← H.vals c (old c hc e) i hi]
      simp only [Heap.alloc, place]
      rw [if_neg (by omega)]

theorem alloc_bat {h s ρ} (H : HeapRel h s ρ) (ms : Nat) (junk : Nat → Nat → ℂ) (X : String) {B n : Nat} (hn : n < 64) :
    HeapRel (h.alloc junk (B * rowStride ms (2 ^ n)))
      (s.freshBatch X B n fun b j => if j.toNat < 2 ^ n then junk h.next (b * rowStride ms (2 ^ n) + j.toNat) else 0)
      (fun c => if s.cells ≤ c then (h.next, (c - s.cells) * rowStride ms (2 ^ n)) else ρ c) := by
  have hp : (2 : Nat) ^ n < 2 ^ 64 := Nat.pow_lt_pow_right (by decide) hn
  have hst := le_rowStride ms (2 ^ n)
  generalize hS : rowStride ms (2 ^ n) = S at *
  constructor
  · intro c hc
    by_cases e : s.cells ≤ c
    · simp only [Store.freshBatch, Heap.alloc, if_pos e, Function.update_self] at hc ⊢
      refine ⟨by omega, ?_⟩
      have : (c - s.cells + 1) * S ≤ B * S := Nat.mul_le_mul_right _ (by omega)
      rw [Nat.succ_mul] at this
      omega
    · have := H.inside c (by omega)
      simp only [Store.freshBatch, Heap.alloc, if_neg e]
      rw [Function.update_of_ne (by omega)]
      exact ⟨by omega, this.2⟩
  · intro c d i j hc hd hi hj e
    by_cases e1 : s.cells ≤ c <;> by_cases e2 : s.cells ≤ d
    · simp only [Store.freshBatch, if_pos e1, if_pos e2, place, Prod.mk.injEq, true_and] at hi hj e
      have hlt : ∀ a b x y : Nat, x < S → y < S → a * S + x = b * S + y → a = b := by
        intro a b x y hx hy hh
        have h1 : (a * S + x) / S = a := by
          rw [Nat.mul_comm, Nat.mul_add_div (by omega), Nat.div_eq_of_lt hx, Nat.add_zero]
        have h2 : (b * S + y) / S = b := by
          rw [Nat.mul_comm, Nat.mul_add_div (by omega), Nat.div_eq_of_lt hy, Nat.add_zero]
        rw [← h1, hh, h2]
      have := hlt _ _ _ _ (by omega) (by omega) e
      omega
    · have := H.inside d (by omega)
      simp only [if_pos e1, if_neg e2, place, Prod.mk.injEq] at e
      omega
    · have := H.inside c (by omega)
      simp only [if_pos e2, if_neg e1, place, Prod.mk.injEq] at e
      omega
    · simp only [Store.freshBatch, if_neg e1, if_neg e2] at hi hj e
      exact H.apart c d i j (by omega) (by omega) hi hj e
  · intro c hc
    simp only [Store.freshBatch]
    split
    · exact hn
    · exact H.small c (by omega)
  · intro c hc j hj
    by_cases e : s.cells ≤ c
    · simp only [Store.freshBatch, if_pos e] at hj ⊢
      exact if_neg hj
    · simp only [Store.freshBatch, if_neg e] at hj ⊢
      exact H.zero c (by omega) j hj
  · intro c hc i hi
    by_cases e : s.cells ≤ c
    · simp only [Store.freshBatch, if_pos e] at hi ⊢
      have hi' : (BitVec.ofNat 64 i).toNat = i := by rw [BitVec.toNat_ofNat]; exact Nat.mod_eq_of_lt (by omega)
      simp [Heap.alloc, place, hi', hi]
    · simp only [Store.freshBatch, if_neg e] at hi ⊢
      have := H.inside c (by omega)
      rw [← H.vals c (by omega) i hi]
      simp only [Heap.alloc, place]
      rw [if_neg (by omega)]

end Verif.Proofs
