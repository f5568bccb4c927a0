import Verif.Proofs.SharingHeap
import Verif.Proofs.CircuitBatched

/-! # Commands on memory refine commands on cells -/

namespace Verif.Proofs
open Verif Verif.Model Verif.Spec

attribute [-simp] BitVec.getLsbD_eq_getElem

theorem within2_mono {A R α : Type} {F S S' : A → Prop} (h : ∀ a, S a → S' a) : ∀ {p : Prog A R α}, p.Within2 F S → p.Within2 F S'
  | .pure _, _ => trivial
  | .read _ _, hp => ⟨hp.1.imp id (h _), fun v => within2_mono h (hp.2 v)⟩
  | .write _ _ _, hp => ⟨hp.1, within2_mono h hp.2⟩

/-- memory and names -/
structure Pictures (ms : Nat) (w : World) (s : Store) (ρ : Nat → Addr) : Prop where
  heap : HeapRel w.heap s ρ
  vec : ∀ x, w.vec x = (s.vec x).map (vecAt s ρ)
  used : ∀ x c, s.vec x = some c → c < s.cells
  nobat : ∀ X, s.bat X = none → w.bat X = none
  bat : ∀ X n cs, s.bat X = some (n, cs) → ∃ v, w.bat X = some v ∧ BatAt ms s ρ n cs v

variable {L ms : Nat} {junk : Nat → Nat → ℂ} {w : World} {s : Store} {ρ : Nat → Addr}

/-- what has to be shown about a command that is not refused -/
def Done (ms : Nat) (E : World → Option Fault → Prop) (s' : Store) : Prop :=
  ∃ w0 ρ', Pictures ms w0 s' ρ' ∧ ∀ w' f, E w' f ↔ w' = w0 ∧ f = none

/-- what has to be shown about a command that is refused -/
def Refused (w : World) (E : World → Option Fault → Prop) : Prop := ∃ msg, ∀ w' f, E w' f ↔ w' = w ∧ f = some (.throw msg)

theorem refused_throws (w : World) (msg : String) : Refused w (w.Throws msg) := ⟨msg, fun _ _ => Iff.rfl⟩

theorem Pictures.reheap (R : Pictures ms w s ρ) {h : Heap} {val : Nat → U64 → ℂ} (H : HeapRel h { s with val := val } ρ) :
    Pictures ms { w with heap := h } { s with val := val } ρ :=
  ⟨H, R.vec, R.used, R.nobat, fun X n cs hX => by
    obtain ⟨v, hv, hb⟩ := R.bat X n cs hX
    exact ⟨v, hv, hb.size, hb.qubits, hb.dim, hb.stride, hb.small, hb.fits, hb.cell⟩⟩

theorem kernel_done (R : Pictures ms w s ρ) {ι : Type} [DecidableEq ι] {ok : Addr → Prop} {pool : Pool ι Addr ℂ} {val : Nat → U64 → ℂ}
    (h : ∃ h0, (∀ h', HeapRuns ok w.heap pool h' ↔ h' = h0) ∧ HeapRel h0 { s with val := val } ρ) :
    Done ms (w.Kernel ok pool) { s with val := val } := by
  obtain ⟨h0, h1, h2⟩ := h
  refine ⟨_, ρ, R.reheap h2, fun w' f => ?_⟩
  constructor
  · rintro ⟨h', hl, rfl, rfl⟩
    rw [(h1 h').1 hl]
    exact ⟨rfl, rfl⟩
  · rintro ⟨rfl, rfl⟩
    exact ⟨h0, (h1 h0).2 rfl, rfl, rfl⟩

/-! ## new objects -/

theorem fresh_set (s : Store) (x : String) (n : Nat) (u v : U64 → ℂ) : (s.fresh x n u).set s.cells v = s.fresh x n v := by
  simp [Store.fresh, Store.set]

theorem freshBatch_setMany (s : Store) (X : String) (B n : Nat) (u v : Nat → U64 → ℂ) :
    ((s.freshBatch X B n u).setMany ((List.range B).map (s.cells + ·)) fun b _ => v b).val =
      fun c => if s.cells ≤ c ∧ c < s.cells + B then v (c - s.cells) else (s.freshBatch X B n u).val c := by
  have hnd : ((List.range B).map (s.cells + ·)).Nodup := List.Nodup.map (fun a b h => by simpa using h) List.nodup_range
  funext c
  simp only [Store.setMany]
  by_cases h : s.cells ≤ c ∧ c < s.cells + B
  · have hb : c - s.cells < ((List.range B).map (s.cells + ·)).length := by simp; omega
    have hc : ((List.range B).map (s.cells + ·))[c - s.cells] = c := by simp; omega
    rw [if_pos h, if_pos (by rw [← hc]; exact List.getElem_mem _)]
    congr 1
    conv_lhs => rw [← hc]
    exact hnd.idxOf_getElem _ hb
  · rw [if_neg h, if_neg]
    intro hm
    simp only [List.mem_map, List.mem_range] at hm
    obtain ⟨b, hb, rfl⟩ := hm
    omega

theorem freshBatch_rel {h0 : Heap} {s : Store} {X : String} {B n : Nat} {u v : Nat → U64 → ℂ} {ρ : Nat → Addr}
    (h2 : HeapRel h0 ((s.freshBatch X B n u).setMany ((List.range B).map (s.cells + ·)) fun b _ => v b) ρ) :
    HeapRel h0 (s.freshBatch X B n v) ρ := by
  have hval := freshBatch_setMany s X B n u v
  refine ⟨h2.inside, h2.apart, h2.small, ?_, ?_⟩
  · intro c hc j hj
    have := h2.zero c hc j hj
    rw [hval] at this
    simp only [Store.freshBatch] at hc ⊢ this
    by_cases e : s.cells ≤ c
    · rw [if_pos e]; rwa [if_pos ⟨e, hc⟩] at this
    · rw [if_neg e]; rwa [if_neg (fun h => e h.1), if_neg e] at this
  · intro c hc i hi
    have := h2.vals c hc i hi
    rw [this, hval]
    simp only [Store.freshBatch] at hc ⊢
    by_cases e : s.cells ≤ c
    · rw [if_pos ⟨e, hc⟩, if_pos e]
    · rw [if_neg e, if_neg (fun h => e h.1), if_neg e]

theorem Pictures.names_fresh (R : Pictures ms w s ρ) (x : String) {n : Nat} (v : U64 → ℂ) {h : Heap} {a : Addr}
    (H : HeapRel h (s.fresh x n v) (Function.update ρ s.cells a)) :
    Pictures ms { w with heap := h, vec := Function.update w.vec x (some ⟨n, 2 ^ n, a.1, a.2⟩) } (s.fresh x n v) (Function.update ρ s.cells a) := by
  refine ⟨H, ?_, ?_, R.nobat, ?_⟩
  · intro y
    by_cases e : y = x
    · subst e
      simp [Store.fresh, vecAt]
    · simp only [Store.fresh, Function.update_of_ne e, R.vec]
      cases hy : s.vec y with
      | none => rfl
      | some c =>
        have := R.used y c hy
        simp only [Option.map_some, vecAt]
        rw [Function.update_of_ne (by omega), Function.update_of_ne (by omega)]
  · intro y c hy
    by_cases e : y = x
    · subst e
      simp only [Store.fresh, Function.update_self, Option.some.injEq] at hy ⊢
      omega
    · simp only [Store.fresh, Function.update_of_ne e] at hy ⊢
      have := R.used y c hy
      omega
  · intro X m cs hX
    obtain ⟨v', hv, hb⟩ := R.bat X m cs hX
    refine ⟨v', hv, hb.size, hb.qubits, hb.dim, hb.stride, hb.small, hb.fits, fun b hlt => ?_⟩
    obtain ⟨h1, h2, h3⟩ := hb.cell b hlt
    simp only [Store.fresh]
    rw [Function.update_of_ne (by omega), Function.update_of_ne (by omega)]
    exact ⟨by omega, h2, h3⟩

/-- a new state filled by a kernel that reads old memory only -/
theorem newVec_done (R : Pictures ms w s ρ) (x : String) {n : Nat} (hn : n < 64) (ok : Addr → Prop) (pool : (v : SVec) → Pool (Fin v.dim) Addr ℂ)
    (v : U64 → ℂ) (hz : ∀ j : U64, ¬ j.toNat < 2 ^ n → v j = 0)
    (hw : ∀ i : Fin (2 ^ n), (pool ⟨n, 2 ^ n, w.heap.next, 0⟩ i).Within2 (fun a => a = place (w.heap.next, 0) i) (fun a => w.heap.Valid a ∧ ok a))
    (he : ∀ (m : Addr → ℂ), (∀ a, w.heap.Valid a → m a = w.heap.cell a) → ∀ i : Fin (2 ^ n),
      (pool ⟨n, 2 ^ n, w.heap.next, 0⟩ i).exec m (place (w.heap.next, 0) i) = v (BitVec.ofNat 64 i)) :
    Done ms (w.NewVec junk x n ok pool) (s.fresh x n v) := by
  have H := alloc_vec R.heap junk x hn
  have hq : (s.fresh x n fun j => if j.toNat < 2 ^ n then junk w.heap.next j.toNat else 0).qubits s.cells = n := by simp [Store.fresh]
  have hρ : Function.update ρ s.cells (w.heap.next, 0) s.cells = (w.heap.next, 0) := Function.update_self ..
  have hk := vec_kernel H (c := s.cells) (by simp [Store.fresh]) (D := 2 ^ n) (by rw [hq]) (pool ⟨n, 2 ^ n, w.heap.next, 0⟩)
    (fun a => (⟨n, 2 ^ n, w.heap.next, 0⟩ : SVec).Mem a ∨ ok a) ?_ v ?_ ?_ ?_
  · obtain ⟨h0, h1, h2⟩ := hk
    rw [fresh_set] at h2
    refine ⟨_, _, R.names_fresh x v h2, fun w' f => ?_⟩
    have hu : uninitVec junk w.heap n = .ok (w.heap.alloc junk (2 ^ n), ⟨n, 2 ^ n, w.heap.next, 0⟩) := by
      unfold uninitVec; rw [if_neg (by omega)]
    unfold World.NewVec
    rw [hu]
    dsimp only
    constructor
    · rintro ⟨h', hl, rfl, rfl⟩
      rw [(h1 h').1 hl]
      exact ⟨rfl, rfl⟩
    · rintro ⟨rfl, rfl⟩
      exact ⟨h0, (h1 h0).2 rfl, rfl, rfl⟩
  · intro i hi
    rw [hq] at hi
    rw [hρ]
    exact Or.inl ⟨i, hi, rfl⟩
  · intro i
    rw [hρ]
    refine within2_mono ?_ (hw i)
    rintro a ⟨⟨h1, h2⟩, h3⟩
    refine ⟨⟨⟨?_, ?_⟩, Or.inr h3⟩, ?_⟩
    · simp only [Heap.alloc]; omega
    · simp only [Heap.alloc]; rw [Function.update_of_ne (by omega)]; exact h2
    · rintro k rfl
      simp only [place] at h1
      omega
  · rw [hq]; exact hz
  · intro i
    rw [hρ]
    refine he _ ?_ i
    rintro a ⟨h1, -⟩
    simp only [Heap.alloc]
    rw [if_neg (by omega)]

theorem freshBatch_congr (s : Store) (X : String) (B n : Nat) (u v : Nat → U64 → ℂ) :
    { s.freshBatch X B n u with val := (s.freshBatch X B n v).val } = s.freshBatch X B n v := rfl

/-- the batch with the new cells -/
theorem batAt_fresh (s : Store) (ρ : Nat → Addr) (X : String) (B n next : Nat) (v : Nat → U64 → ℂ) (hn : n < 64) (hB : B * 2 ^ n ≤ 2 ^ 64) :
    BatAt ms (s.freshBatch X B n v) (fun c => if s.cells ≤ c then (next, (c - s.cells) * rowStride ms (2 ^ n)) else ρ c) n
      ((List.range B).map (s.cells + ·)) ⟨B, n, 2 ^ n, next, rowStride ms (2 ^ n)⟩ := by
  refine ⟨by simp, rfl, rfl, rfl, hn, by simpa using hB, fun b hb => ?_⟩
  simp only [List.length_map, List.length_range] at hb
  simp [Store.freshBatch, hb]

theorem Pictures.names_freshBatch (R : Pictures ms w s ρ) (X : String) {B n : Nat} (hn : n < 64) (hB : B * 2 ^ n ≤ 2 ^ 64) (v : Nat → U64 → ℂ) {h : Heap} {next : Nat}
    (H : HeapRel h (s.freshBatch X B n v) (fun c => if s.cells ≤ c then (next, (c - s.cells) * rowStride ms (2 ^ n)) else ρ c)) :
    Pictures ms { w with heap := h, bat := Function.update w.bat X (some ⟨B, n, 2 ^ n, next, rowStride ms (2 ^ n)⟩) } (s.freshBatch X B n v)
      (fun c => if s.cells ≤ c then (next, (c - s.cells) * rowStride ms (2 ^ n)) else ρ c) := by
  refine ⟨H, ?_, ?_, ?_, ?_⟩
  · intro y
    show w.vec y = (s.vec y).map _
    rw [R.vec]
    cases hy : s.vec y with
    | none => rfl
    | some c =>
      have := R.used y c hy
      simp only [Option.map_some, vecAt, Store.freshBatch]
      rw [if_neg (by omega), if_neg (by omega)]
  · intro y c hy
    have := R.used y c hy
    simp only [Store.freshBatch]; omega
  · intro Y hY
    by_cases e : Y = X
    · subst e; simp [Store.freshBatch] at hY
    · simp only [Store.freshBatch, Function.update_of_ne e] at hY ⊢
      exact R.nobat Y hY
  · intro Y m cs hY
    by_cases e : Y = X
    · subst e
      simp only [Store.freshBatch, Function.update_self, Option.some.injEq, Prod.mk.injEq] at hY
      obtain ⟨rfl, rfl⟩ := hY
      exact ⟨_, by simp, batAt_fresh s ρ Y B n next v hn hB⟩
    · simp only [Store.freshBatch, Function.update_of_ne e] at hY
      obtain ⟨v', hv, hb⟩ := R.bat Y m cs hY
      refine ⟨v', by simpa [Function.update_of_ne e] using hv, hb.size, hb.qubits, hb.dim, hb.stride, hb.small, hb.fits, fun b hlt => ?_⟩
      obtain ⟨h1, h2, h3⟩ := hb.cell b hlt
      simp only [Store.freshBatch]
      rw [if_neg (by omega), if_neg (by omega)]
      exact ⟨by omega, h2, h3⟩

/-- a new batch filled by a kernel that reads old memory only -/
theorem newBat_done (R : Pictures ms w s ρ) (X : String) {B n : Nat} (hn : n < 64) (hB : B * 2 ^ n ≤ 2 ^ 64) (ok : Addr → Prop)
    (pool : (v : SBat) → Pool (Fin v.size × Fin v.dim) Addr ℂ)
    (v : Nat → U64 → ℂ) (hz : ∀ b, b < B → ∀ j : U64, ¬ j.toNat < 2 ^ n → v b j = 0)
    (hw : ∀ (Y : SBat), Y = ⟨B, n, 2 ^ n, w.heap.next, rowStride ms (2 ^ n)⟩ → ∀ k : Fin Y.size × Fin Y.dim,
      (pool Y k).Within2 (fun a => a = Y.addr k.1 k.2) (fun a => w.heap.Valid a ∧ ok a))
    (he : ∀ (Y : SBat), Y = ⟨B, n, 2 ^ n, w.heap.next, rowStride ms (2 ^ n)⟩ → ∀ (m : Addr → ℂ), (∀ a, w.heap.Valid a → m a = w.heap.cell a) →
      ∀ k : Fin Y.size × Fin Y.dim, (pool Y k).exec m (Y.addr k.1 k.2) = v k.1 (BitVec.ofNat 64 k.2)) :
    Done ms (w.NewBat ms junk X B n ok pool) (s.freshBatch X B n v) := by
  have H := alloc_bat R.heap ms junk X (B := B) hn
  generalize hu0 : (fun (b : Nat) (j : U64) => if j.toNat < 2 ^ n then junk w.heap.next (b * rowStride ms (2 ^ n) + j.toNat) else 0) = u0 at H
  have hX := batAt_fresh (ms := ms) s ρ X B n w.heap.next u0 hn hB
  have hk := bat_kernel H hX (B := B) (D := 2 ^ n) (by simp) rfl (pool ⟨B, n, 2 ^ n, w.heap.next, rowStride ms (2 ^ n)⟩)
    (fun a => (⟨B, n, 2 ^ n, w.heap.next, rowStride ms (2 ^ n)⟩ : SBat).Mem a ∨ ok a) ?_ (fun b _ => v b) ?_ ?_ ?_
  · obtain ⟨h0, h1, h2⟩ := hk
    have h3 := freshBatch_rel h2
    refine ⟨_, _, R.names_freshBatch X hn hB v h3, fun w' f => ?_⟩
    have hu : uninitBat ms junk w.heap B n = .ok (w.heap.alloc junk (B * rowStride ms (2 ^ n)), ⟨B, n, 2 ^ n, w.heap.next, rowStride ms (2 ^ n)⟩) := by
      unfold uninitBat; rw [if_neg (by omega)]
    unfold World.NewBat
    rw [hu]
    dsimp only
    constructor
    · rintro ⟨h', hl, rfl, rfl⟩
      rw [(h1 h').1 hl]
      exact ⟨rfl, rfl⟩
    · rintro ⟨rfl, rfl⟩
      exact ⟨h0, (h1 h0).2 rfl, rfl, rfl⟩
  · intro b i hb hi
    exact Or.inl ⟨b, i, by simpa using hb, hi, rfl⟩
  · intro k
    refine within2_mono ?_ (hw _ rfl k)
    rintro a ⟨⟨h1, h2⟩, h3⟩
    refine ⟨⟨⟨?_, ?_⟩, Or.inr h3⟩, ?_⟩
    · simp only [Heap.alloc]; omega
    · simp only [Heap.alloc]; rw [Function.update_of_ne (by omega)]; exact h2
    · rintro k rfl
      simp only [SBat.addr] at h1
      omega
  · intro b hb j hj
    exact hz b (by simpa using hb) j hj
  · intro b hb i hi
    refine he _ rfl _ ?_ (⟨b, by simpa using hb⟩, ⟨i, hi⟩)
    rintro a ⟨h1, -⟩
    simp only [Heap.alloc]
    rw [if_neg (by omega)]

end Verif.Proofs
