import Verif.Proofs.SharingStep

/-! # The commands one by one -/

namespace Verif.Proofs
open Verif Verif.Model Verif.Spec

attribute [-simp] BitVec.getLsbD_eq_getElem

variable {L ms : Nat} {junk : Nat → Nat → ℂ} {w : World} {s : Store} {ρ : Nat → Addr}

/-! ## small programs -/

section Small
variable {A R : Type} [DecidableEq A]

theorem exec_store (a : A) (v : R) (m : A → R) : (Prog.store a v).exec m a = v := by
  simp [Prog.store, Prog.exec]

theorem exec_load_store (a b : A) (g : R → R) (m : A → R) : (Prog.load a >>= fun x => Prog.store b (g x)).exec m b = g (m a) := by
  simp [Bind.bind, Prog.bind, Prog.load, Prog.store, Prog.exec]

theorem exec_load2_store (a a' b : A) (g : R → R → R) (m : A → R) :
    (Prog.load a >>= fun x => Prog.load a' >>= fun y => Prog.store b (g x y)).exec m b = g (m a) (m a') := by
  simp [Bind.bind, Prog.bind, Prog.load, Prog.store, Prog.exec]

theorem within2_store {F S : A → Prop} {a : A} {v : R} (h : F a) : (Prog.store a v).Within2 F S := ⟨h, trivial⟩

theorem within2_load_store {F S : A → Prop} {a b : A} {g : R → R} (ha : F a ∨ S a) (hb : F b) :
    (Prog.load a >>= fun x => Prog.store b (g x)).Within2 F S := ⟨ha, fun _ => ⟨hb, trivial⟩⟩

theorem within2_load2_store {F S : A → Prop} {a a' b : A} {g : R → R → R} (ha : F a ∨ S a) (ha' : F a' ∨ S a') (hb : F b) :
    (Prog.load a >>= fun x => Prog.load a' >>= fun y => Prog.store b (g x y)).Within2 F S := ⟨ha, fun _ => ⟨ha', fun _ => ⟨hb, trivial⟩⟩⟩

end Small

theorem toNat_ofNat_small {i : Nat} (h : i < 2 ^ 64) : (BitVec.ofNat 64 i : U64).toNat = i := by
  rw [BitVec.toNat_ofNat]; exact Nat.mod_eq_of_lt h

theorem HeapRel.idx {h s ρ} (H : HeapRel h s ρ) {c i : Nat} (hc : c < s.cells) (hi : i < 2 ^ s.qubits c) :
    (BitVec.ofNat 64 i : U64).toNat = i := toNat_ofNat_small (lt_trans hi (H.pow_lt hc))

/-- reading the same position of another cell -/
theorem HeapRel.src {h s ρ} (H : HeapRel h s ρ) {c d : Nat} (hc : c < s.cells) (hd : d < s.cells) (hq : s.qubits d = s.qubits c) {ok : Addr → Prop}
    {i : Nat} (hi : i < 2 ^ s.qubits c) (hok : ok (place (ρ d) i)) {D : Nat} (hD : D = 2 ^ s.qubits c) :
    place (ρ d) i = place (ρ c) i ∨ ((h.Valid (place (ρ d) i) ∧ ok (place (ρ d) i)) ∧ ∀ k : Fin D, place (ρ d) i ≠ place (ρ c) k) := by
  by_cases e : d = c
  · left; rw [e]
  · refine Or.inr ⟨⟨H.valid hd (hq.symm ▸ hi), hok⟩, fun k e' => e ?_⟩
    subst hD
    exact H.apart d c i k hd hc (hq.symm ▸ hi) k.2 e'

theorem vecAt_mem {s : Store} {ρ : Nat → Addr} {c i : Nat} (hi : i < 2 ^ s.qubits c) : (vecAt s ρ c).Mem (place (ρ c) i) := ⟨i, hi, rfl⟩

theorem Pictures.vec_some (R : Pictures ms w s ρ) {x : String} {c : Nat} (h : s.vec x = some c) : w.vec x = some (vecAt s ρ c) := by
  rw [R.vec, h]; rfl

/-! ## states -/

theorem fillVec_done (R : Pictures ms w s ρ) {c : Nat} (hc : c < s.cells) (f : Nat → ℂ) (v : U64 → ℂ)
    (hz : ∀ j : U64, ¬ j.toNat < 2 ^ s.qubits c → v j = 0) (hv : ∀ i, i < 2 ^ s.qubits c → f i = v (BitVec.ofNat 64 i)) :
    Done ms (w.Kernel (vecAt s ρ c).Mem (fillVec (vecAt s ρ c) f)) (s.set c v) := by
  refine kernel_done R (vec_kernel R.heap hc rfl _ _ (fun i hi => vecAt_mem hi) v ?_ hz ?_)
  · intro i; exact within2_store rfl
  · intro i; exact (exec_store (place (ρ c) i) _ _).trans (hv i i.2)

theorem copyVecK_done (R : Pictures ms w s ρ) {c d : Nat} (hc : c < s.cells) (hd : d < s.cells) (hq : s.qubits d = s.qubits c) (u v : SVec)
    (hu : v.dim = 2 ^ s.qubits c ∧ ∀ i, v.addr i = place (ρ c) i) (hv : ∀ i, u.addr i = place (ρ d) i) (ok : Addr → Prop)
    (hok : ∀ i, i < 2 ^ s.qubits c → ok (place (ρ c) i)) (hok' : ∀ i, i < 2 ^ s.qubits c → ok (place (ρ d) i)) :
    Done ms (w.Kernel ok (copyVecK v u)) (s.set c (s.val d)) := by
  refine kernel_done R (vec_kernel R.heap hc hu.1 _ _ hok _ ?_ ?_ ?_)
  · intro i
    have hi : i.val < 2 ^ s.qubits c := lt_of_lt_of_eq i.2 hu.1
    refine within2_load_store (g := id) ?_ (hu.2 i)
    rw [hv]
    exact R.heap.src hc hd hq hi (hok' i hi) hu.1
  · rw [← hq]; exact R.heap.zero d hd
  · intro i
    have hi : i.val < 2 ^ s.qubits c := lt_of_lt_of_eq i.2 hu.1
    rw [← hu.2]
    refine (exec_load_store (u.addr i) (v.addr i) id w.heap.cell).trans ?_
    rw [hv]
    exact R.heap.vals d hd i (hq.symm ▸ hi)

theorem axpyVec_done (R : Pictures ms w s ρ) {c d : Nat} (hc : c < s.cells) (hd : d < s.cells) (hq : s.qubits d = s.qubits c) (a : ℂ) :
    Done ms (w.Kernel (fun p => (vecAt s ρ c).Mem p ∨ (vecAt s ρ d).Mem p) (axpyVec (vecAt s ρ c) a (vecAt s ρ d)))
      (s.set c fun j => s.val c j + a * s.val d j) := by
  refine kernel_done R (vec_kernel R.heap hc rfl _ _ (fun i hi => Or.inl (vecAt_mem hi)) _ ?_ ?_ ?_)
  · intro i
    exact within2_load2_store (g := fun x y => x + a * y) (Or.inl rfl)
      (R.heap.src (ok := fun p => (vecAt s ρ c).Mem p ∨ (vecAt s ρ d).Mem p) hc hd hq i.2
        (Or.inr (vecAt_mem (lt_of_lt_of_eq i.2 (congrArg (2 ^ ·) hq.symm)))) rfl) rfl
  · intro j hj
    show s.val c j + a * s.val d j = 0
    rw [R.heap.zero c hc j hj, R.heap.zero d hd j (hq.symm ▸ hj)]
    simp
  · intro i
    refine (exec_load2_store (place (ρ c) i) (place (ρ d) i) (place (ρ c) i) (fun x y => x + a * y) w.heap.cell).trans ?_
    rw [R.heap.vals c hc i i.2, R.heap.vals d hd i (hq.symm ▸ i.2)]

theorem scaleVec_done (R : Pictures ms w s ρ) {c : Nat} (hc : c < s.cells) (a : ℂ) :
    Done ms (w.Kernel (vecAt s ρ c).Mem (scaleVec (vecAt s ρ c) a)) (s.set c fun j => a * s.val c j) := by
  refine kernel_done R (vec_kernel R.heap hc rfl _ _ (fun i hi => vecAt_mem hi) _ ?_ ?_ ?_)
  · intro i
    exact within2_load_store (g := fun x => x * a) (Or.inl rfl) rfl
  · intro j hj
    show a * s.val c j = 0
    rw [R.heap.zero c hc j hj]; simp
  · intro i
    refine (exec_load_store (place (ρ c) i) (place (ρ c) i) (fun x => x * a) w.heap.cell).trans ?_
    rw [R.heap.vals c hc i i.2, mul_comm]

theorem loadVecK_done (R : Pictures ms w s ρ) {c : Nat} (hc : c < s.cells) (amps : List ℂ) (hl : amps.length = 2 ^ s.qubits c) :
    Done ms (w.Kernel (vecAt s ρ c).Mem (loadVecK (vecAt s ρ c) amps)) (s.set c (ofList amps)) := by
  have hp : ∀ i : Fin (vecAt s ρ c).dim, loadVecK (vecAt s ρ c) amps i = Prog.store (place (ρ c) i) (ofList amps (BitVec.ofNat 64 i)) := by
    intro i
    have hi : i.val < amps.length := by rw [hl]; exact i.2
    unfold loadVecK
    rw [List.getElem?_eq_getElem hi]
    dsimp only
    congr 1
    unfold ofList
    have : (BitVec.ofNat 64 i.val : U64).toNat = i.val := R.heap.idx hc i.2
    simp only [this, hi, dite_true]
  refine kernel_done R (vec_kernel R.heap hc rfl _ _ (fun i hi => vecAt_mem hi) _ ?_ ?_ ?_)
  · intro i; exact (congrArg (Prog.Within2 _ _) (hp i)).mpr (within2_store rfl)
  · intro j hj
    unfold ofList
    rw [dif_neg (by rw [hl]; exact hj)]
  · intro i; exact (congrArg (fun p => p.exec w.heap.cell (place (ρ c) i)) (hp i)).trans (exec_store _ _ _)

theorem setAmp_done (R : Pictures ms w s ρ) {c i : Nat} (hc : c < s.cells) (hi : i < 2 ^ s.qubits c) (a : ℂ) :
    Done ms (fun w' f => w' = { w with heap := { w.heap with cell := Function.update w.heap.cell ((vecAt s ρ c).addr i) a } } ∧ f = none)
      (s.set c fun j => if j.toNat = i then a else s.val c j) := by
  have haddr : (vecAt s ρ c).addr i = place (ρ c) i := rfl
  rw [haddr]
  refine ⟨_, ρ, R.reheap (h := ⟨w.heap.next, w.heap.size, Function.update w.heap.cell (place (ρ c) i) a⟩)
    (R.heap.update _ _ ?_ ?_), fun w' f => Iff.rfl⟩
  · intro d hd j hj
    by_cases e : d = c
    · subst e
      simp only [Function.update_self]
      rw [if_neg (by omega)]
      exact R.heap.zero d hd j hj
    · rw [Function.update_of_ne e]; exact R.heap.zero d hd j hj
  · intro d hd k hk
    by_cases e : d = c
    · subst e
      simp only [Function.update_self]
      rw [R.heap.idx hd hk]
      by_cases ek : k = i
      · subst ek
        rw [if_pos rfl]
        exact Function.update_self ..
      · rw [if_neg ek, Function.update_of_ne (fun e' => ek (place_inj e'))]
        exact R.heap.vals d hd k hk
    · rw [Function.update_of_ne e, Function.update_of_ne (fun e' => e (R.heap.apart d c k i hd hc hk hi e'))]
      exact R.heap.vals d hd k hk

theorem shareVec_done (R : Pictures ms w s ρ) (x : String) {c : Nat} (hc : c < s.cells) :
    Pictures ms { w with vec := Function.update w.vec x (some (vecAt s ρ c)) } { s with vec := Function.update s.vec x (some c) } ρ := by
  refine ⟨⟨R.heap.inside, R.heap.apart, R.heap.small, R.heap.zero, R.heap.vals⟩, ?_, ?_, R.nobat, fun X n cs hX => ?_⟩
  · intro y
    by_cases e : y = x
    · subst e; simp; rfl
    · simp only [Function.update_of_ne e]; exact R.vec y
  · intro y d hy
    by_cases e : y = x
    · subst e; simp at hy; exact hy ▸ hc
    · simp only [Function.update_of_ne e] at hy; exact R.used y d hy
  · obtain ⟨v, hv, hb⟩ := R.bat X n cs hX
    exact ⟨v, hv, hb.size, hb.qubits, hb.dim, hb.stride, hb.small, hb.fits, hb.cell⟩

theorem shareBatch_done (R : Pictures ms w s ρ) (X : String) {n : Nat} {cs : List Nat} {v : SBat} (hb : BatAt ms s ρ n cs v) :
    Pictures ms { w with bat := Function.update w.bat X (some v) } { s with bat := Function.update s.bat X (some (n, cs)) } ρ := by
  have cast : ∀ {n cs v}, BatAt ms s ρ n cs v → BatAt ms { s with bat := Function.update s.bat X (some (n, cs)) } ρ n cs v :=
    fun hb => ⟨hb.size, hb.qubits, hb.dim, hb.stride, hb.small, hb.fits, hb.cell⟩
  refine ⟨⟨R.heap.inside, R.heap.apart, R.heap.small, R.heap.zero, R.heap.vals⟩, R.vec, R.used, ?_, ?_⟩
  · intro Y hY
    by_cases e : Y = X
    · subst e; simp at hY
    · simp only [Function.update_of_ne e] at hY ⊢; exact R.nobat Y hY
  · intro Y m ds hY
    by_cases e : Y = X
    · subst e
      simp only [Function.update_self, Option.some.injEq, Prod.mk.injEq] at hY
      obtain ⟨rfl, rfl⟩ := hY
      exact ⟨v, by simp, hb.size, hb.qubits, hb.dim, hb.stride, hb.small, hb.fits, hb.cell⟩
    · simp only [Function.update_of_ne e] at hY
      obtain ⟨v', hv, hb⟩ := R.bat Y m ds hY
      exact ⟨v', by simpa [Function.update_of_ne e] using hv, hb.size, hb.qubits, hb.dim, hb.stride, hb.small, hb.fits, hb.cell⟩

/-! ## batches -/

theorem BatAt.mem {n cs X} (hX : BatAt ms s ρ n cs X) {b i : Nat} (hb : b < cs.length) (hi : i < 2 ^ n) : X.Mem (place (ρ cs[b]) i) :=
  ⟨b, i, hX.size.symm ▸ hb, hX.dim.symm ▸ hi, (hX.addr hb i).symm⟩

theorem BatAt.memAddr {n cs X} (hX : BatAt ms s ρ n cs X) {b i : Nat} (hb : b < cs.length) (hi : i < 2 ^ n) : X.Mem (X.addr b i) :=
  ⟨b, i, hX.size.symm ▸ hb, hX.dim.symm ▸ hi, rfl⟩

theorem BatAt.val {n cs X} (H : HeapRel w.heap s ρ) (hX : BatAt ms s ρ n cs X) {b i : Nat} (hb : b < cs.length) (hi : i < 2 ^ n) :
    w.heap.cell (X.addr b i) = s.val cs[b] (BitVec.ofNat 64 i) := by
  have hc := hX.cell b hb
  rw [hX.addr hb, H.vals _ hc.1 i (hc.2.1.symm ▸ hi)]

theorem BatAt.zero {n cs X} (H : HeapRel w.heap s ρ) (hX : BatAt ms s ρ n cs X) {b : Nat} (hb : b < cs.length) (j : U64) (hj : ¬ j.toNat < 2 ^ n) :
    s.val cs[b] j = 0 := by
  have hc := hX.cell b hb
  exact H.zero _ hc.1 j (hc.2.1.symm ▸ hj)

theorem BatAt.valid {n cs X} (H : HeapRel w.heap s ρ) (hX : BatAt ms s ρ n cs X) {b i : Nat} (hb : b < cs.length) (hi : i < 2 ^ n) :
    w.heap.Valid (X.addr b i) := by
  have hc := hX.cell b hb
  rw [hX.addr hb]; exact H.valid hc.1 (hc.2.1.symm ▸ hi)

theorem kernel_doneB (R : Pictures ms w s ρ) {ι : Type} [DecidableEq ι] {ok : Addr → Prop} {pool : Pool ι Addr ℂ} {cs : List Nat}
    {F : Nat → (U64 → ℂ) → U64 → ℂ} (h : ∃ h0, (∀ h', HeapRuns ok w.heap pool h' ↔ h' = h0) ∧ HeapRel h0 (s.setMany cs F) ρ) :
    Done ms (w.Kernel ok pool) (s.setMany cs F) := kernel_done R h

theorem fillBat_done (R : Pictures ms w s ρ) {n cs X} (hX : BatAt ms s ρ n cs X) (f : Nat → ℂ) (v : U64 → ℂ)
    (hz : ∀ j : U64, ¬ j.toNat < 2 ^ n → v j = 0) (hv : ∀ i, i < 2 ^ n → f i = v (BitVec.ofNat 64 i)) :
    Done ms (w.Kernel X.Mem (fillBat X f)) (s.setMany cs fun _ _ => v) := by
  refine kernel_doneB R (bat_kernel R.heap hX hX.size hX.dim _ _ (fun b i => hX.memAddr) _ ?_ ?_ ?_)
  · intro k; exact within2_store rfl
  · intro b hb j hj; exact hz j hj
  · intro b hb i hi; exact (exec_store _ _ _).trans (hv i hi)

theorem scaleBat_done (R : Pictures ms w s ρ) {n cs X} (hX : BatAt ms s ρ n cs X) (a : ℂ) :
    Done ms (w.Kernel X.Mem (scaleBat X a)) (s.setMany cs fun _ v j => a * v j) := by
  refine kernel_doneB R (bat_kernel R.heap hX hX.size hX.dim _ _ (fun b i => hX.memAddr) _ ?_ ?_ ?_)
  · intro k; exact within2_load_store (g := fun x => x * a) (Or.inl rfl) rfl
  · intro b hb j hj
    rw [hX.zero R.heap hb j hj]; simp
  · intro b hb i hi
    refine (exec_load_store (X.addr b i) (X.addr b i) (fun x => x * a) w.heap.cell).trans ?_
    rw [hX.val R.heap hb hi, mul_comm]

/-- reading the same position of another batch -/
theorem BatAt.src {n cs ds X Y} (H : HeapRel w.heap s ρ) (hX : BatAt ms s ρ n cs X) (hY : BatAt ms s ρ n ds Y) {ok : Addr → Prop} {b i : Nat}
    (hb : b < cs.length) (hb' : b < ds.length) (hi : i < 2 ^ n) (hok : ok (Y.addr b i)) {B D : Nat} (hB : B = cs.length) (hD : D = 2 ^ n) :
    Y.addr b i = X.addr b i ∨ ((w.heap.Valid (Y.addr b i) ∧ ok (Y.addr b i)) ∧ ∀ k : Fin B × Fin D, Y.addr b i ≠ X.addr k.1 k.2) := by
  subst hB hD
  by_cases e : Y.addr b i = X.addr b i
  · exact Or.inl e
  · refine Or.inr ⟨⟨hY.valid H hb' hi, hok⟩, fun k e' => e ?_⟩
    have e0 := e'
    rw [hY.addr hb', hX.addr k.1.2] at e'
    have h1 := hY.cell b hb'
    have h2 := hX.cell k.1 k.1.2
    have h3 := H.apart _ _ i k.2 h1.1 h2.1 (h1.2.1.symm ▸ hi) (h2.2.1.symm ▸ k.2.2) e'
    have h4 := hY.same hX hb' k.1.2 h3
    have h5 : i = k.2 := by rw [h3] at e'; exact place_inj e'
    rw [e0, ← h4, ← h5]

theorem cellAt_eq {cs : List Nat} {b : Nat} (hb : b < cs.length) : s.cellAt cs b = s.val cs[b] := dif_pos hb

theorem copyBat_done (R : Pictures ms w s ρ) {n cs ds X Y} (hX : BatAt ms s ρ n cs X) (hY : BatAt ms s ρ n ds Y) (hl : cs.length = ds.length) :
    Done ms (w.Kernel (fun a => X.Mem a ∨ Y.Mem a) (copyBatK X Y)) (s.setMany cs fun b _ => s.cellAt ds b) := by
  refine kernel_doneB R (bat_kernel R.heap hX hX.size hX.dim _ _ (fun b i hb hi => Or.inl (hX.memAddr hb hi)) _ ?_ ?_ ?_)
  · intro k
    have hb : k.1.val < cs.length := lt_of_lt_of_eq k.1.2 hX.size
    have hi : k.2.val < 2 ^ n := lt_of_lt_of_eq k.2.2 hX.dim
    exact within2_load_store (g := id) (hX.src (ok := fun p => X.Mem p ∨ Y.Mem p) R.heap hY hb (hl ▸ hb) hi (Or.inr (hY.memAddr (hl ▸ hb) hi)) hX.size hX.dim) rfl
  · intro b hb j hj
    rw [cellAt_eq (hl ▸ hb), hY.zero R.heap (hl ▸ hb) j hj]
  · intro b hb i hi
    refine (exec_load_store (Y.addr b i) (X.addr b i) id w.heap.cell).trans ?_
    rw [cellAt_eq (hl ▸ hb)]
    exact hY.val R.heap (hl ▸ hb) hi

theorem axpyBat_done (R : Pictures ms w s ρ) {n cs ds X Y} (hX : BatAt ms s ρ n cs X) (hY : BatAt ms s ρ n ds Y) (hl : cs.length = ds.length) (a : ℂ) :
    Done ms (w.Kernel (fun p => X.Mem p ∨ Y.Mem p) (axpyBat X a Y)) (s.setMany cs fun b v j => v j + a * s.cellAt ds b j) := by
  refine kernel_doneB R (bat_kernel R.heap hX hX.size hX.dim _ _ (fun b i hb hi => Or.inl (hX.memAddr hb hi)) _ ?_ ?_ ?_)
  · intro k
    have hb : k.1.val < cs.length := lt_of_lt_of_eq k.1.2 hX.size
    have hi : k.2.val < 2 ^ n := lt_of_lt_of_eq k.2.2 hX.dim
    exact within2_load2_store (g := fun x y => x + a * y) (Or.inl rfl)
      (hX.src (ok := fun p => X.Mem p ∨ Y.Mem p) R.heap hY hb (hl ▸ hb) hi (Or.inr (hY.memAddr (hl ▸ hb) hi)) hX.size hX.dim) rfl
  · intro b hb j hj
    rw [cellAt_eq (hl ▸ hb), hY.zero R.heap (hl ▸ hb) j hj, hX.zero R.heap hb j hj]; simp
  · intro b hb i hi
    refine (exec_load2_store (X.addr b i) (Y.addr b i) (X.addr b i) (fun x y => x + a * y) w.heap.cell).trans ?_
    rw [cellAt_eq (hl ▸ hb), hY.val R.heap (hl ▸ hb) hi, hX.val R.heap hb hi]

theorem loadBat_done (R : Pictures ms w s ρ) {n cs X} (hX : BatAt ms s ρ n cs X) (amps : List (List ℂ)) (hl : amps.length = cs.length)
    (hr : ∀ a ∈ amps, a.length = 2 ^ n) :
    Done ms (w.Kernel X.Mem (loadBatK X amps)) (s.setMany cs fun b _ => if h : b < amps.length then ofList amps[b] else fun _ => 0) := by
  have hp : ∀ k : Fin X.size × Fin X.dim, ∃ h : k.1.val < amps.length,
      loadBatK X amps k = Prog.store (X.addr k.1 k.2) (ofList amps[k.1.val] (BitVec.ofNat 64 k.2)) := by
    intro k
    have hb : k.1.val < amps.length := by rw [hl, ← hX.size]; exact k.1.2
    have hi : k.2.val < 2 ^ n := lt_of_lt_of_eq k.2.2 hX.dim
    have hrow := hr _ (List.getElem_mem hb)
    have hi' : k.2.val < amps[k.1.val].length := by rw [hrow]; exact hi
    refine ⟨hb, ?_⟩
    unfold loadBatK
    rw [List.getElem?_eq_getElem hb]
    dsimp only
    rw [List.getElem?_eq_getElem hi']
    dsimp only
    congr 1
    unfold ofList
    have : (BitVec.ofNat 64 k.2.val : U64).toNat = k.2.val :=
      toNat_ofNat_small (lt_trans hi (Nat.pow_lt_pow_right (by decide) hX.small))
    simp only [this, hi', dite_true]
  refine kernel_doneB R (bat_kernel R.heap hX hX.size hX.dim _ _ (fun b i => hX.memAddr) _ ?_ ?_ ?_)
  · intro k; obtain ⟨_, h⟩ := hp k; rw [h]; exact within2_store rfl
  · intro b hb j hj
    rw [dif_pos (hl ▸ hb)]
    unfold ofList
    rw [dif_neg]
    rw [hr _ (List.getElem_mem _)]; exact hj
  · intro b hb i hi
    obtain ⟨h1, h⟩ := hp (⟨b, hX.size.symm ▸ hb⟩, ⟨i, hX.dim.symm ▸ hi⟩)
    rw [h, dif_pos (hl ▸ hb)]
    exact exec_store _ _ _

theorem spreadBat_done (R : Pictures ms w s ρ) {n cs X} (hX : BatAt ms s ρ n cs X) {d : Nat} (hd : d < s.cells) (hq : s.qubits d = n) (hm : d ∉ cs) :
    Done ms (w.Kernel (fun a => X.Mem a ∨ (vecAt s ρ d).Mem a) (spreadBat X (vecAt s ρ d))) (s.setMany cs fun _ _ => s.val d) := by
  refine kernel_doneB R (bat_kernel R.heap hX hX.size hX.dim _ _ (fun b i hb hi => Or.inl (hX.memAddr hb hi)) _ ?_ ?_ ?_)
  · intro k
    have hi : k.2.val < 2 ^ s.qubits d := by rw [hq]; exact lt_of_lt_of_eq k.2.2 hX.dim
    refine within2_load_store (g := id) (Or.inr ⟨⟨R.heap.valid hd hi, Or.inr (vecAt_mem hi)⟩, fun k' e => hm ?_⟩) rfl
    have hb' : k'.1.val < cs.length := lt_of_lt_of_eq k'.1.2 hX.size
    rw [hX.addr hb'] at e
    have h2 := hX.cell k'.1 hb'
    rw [R.heap.apart d _ k.2 k'.2 hd h2.1 hi (by rw [h2.2.1]; exact lt_of_lt_of_eq k'.2.2 hX.dim) e]
    exact List.getElem_mem _
  · intro b hb j hj
    exact R.heap.zero d hd j (hq.symm ▸ hj)
  · intro b hb i hi
    refine (exec_load_store ((vecAt s ρ d).addr i) (X.addr b i) id w.heap.cell).trans ?_
    exact R.heap.vals d hd i (hq.symm ▸ hi)

/-! ## sums -/

theorem within2_sumLoads {A' : Type} {F S : Addr → Prop} {f : Nat → Addr} {g : ℂ → Prog Addr ℂ A'} : ∀ B, (∀ b, b < B → S (f b)) →
    (∀ x, (g x).Within2 F S) → (sumLoads f B >>= g).Within2 F S
  | 0, _, hg => hg 0
  | B + 1, hS, hg => by
    have : (sumLoads f (B + 1) >>= g) = sumLoads f B >>= fun x => Prog.load (f B) >>= fun y => g (x + y) := by
      show Prog.bind (Prog.bind _ _) _ = _
      have assoc : ∀ {α β γ : Type} (p : Prog Addr ℂ α) (q : α → Prog Addr ℂ β) (r : β → Prog Addr ℂ γ),
          Prog.bind (Prog.bind p q) r = Prog.bind p fun a => Prog.bind (q a) r := by
        intro α β γ p q r
        induction p with
        | pure a => rfl
        | read a k ih => simp only [Prog.bind, ih]
        | write a v k ih => simp only [Prog.bind, ih]
      rw [assoc]; rfl
    rw [this]
    exact within2_sumLoads B (fun b hb => hS b (by omega)) fun x => ⟨Or.inr (hS B (by omega)), fun y => hg _⟩

theorem exec_sumLoads {A' : Type} (f : Nat → Addr) (m : Addr → ℂ) : ∀ B (g : ℂ → Prog Addr ℂ A'),
    (sumLoads f B >>= g).exec m = (g (∑ b ∈ Finset.range B, m (f b))).exec m
  | 0, g => by simp [sumLoads, Bind.bind, Prog.bind]
  | B + 1, g => by
    have : (sumLoads f (B + 1) >>= g) = sumLoads f B >>= fun x => Prog.load (f B) >>= fun y => g (x + y) := by
      show Prog.bind (Prog.bind _ _) _ = _
      have assoc : ∀ {α β γ : Type} (p : Prog Addr ℂ α) (q : α → Prog Addr ℂ β) (r : β → Prog Addr ℂ γ),
          Prog.bind (Prog.bind p q) r = Prog.bind p fun a => Prog.bind (q a) r := by
        intro α β γ p q r
        induction p with
        | pure a => rfl
        | read a k ih => simp only [Prog.bind, ih]
        | write a v k ih => simp only [Prog.bind, ih]
      rw [assoc]; rfl
    rw [this, exec_sumLoads f m B, Finset.sum_range_succ]
    rfl

end Verif.Proofs
