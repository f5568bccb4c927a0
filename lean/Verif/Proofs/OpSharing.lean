import Verif.Model.OpHandle
import Verif.Proofs.OperatorBatched

/-! # Programs on operator handles refine programs on cells -/

namespace Verif.Proofs
open Verif Verif.Spec Verif.Model

/-- the terms that `optimize` makes of `ts` -/
noncomputable def codeNorm (ts : List PauliOp) : List PauliOp :=
  (ts.foldl (fun m p => mapAdd (p.x, p.z) p.coef m) []).map fun e => ⟨e.2, e.1.1, e.1.2⟩

/-- cell `c` of `s` lives at the place `ρ c` -/
structure OPic (w : OWorld) (s : OStore) (ρ : Nat → Nat × Nat) : Prop where
  alloc : ∀ c, c < s.cells → (ρ c).1 < w.heap.next
  read : ∀ c, c < s.cells → ∀ i (h : i < (s.val c).length), w.heap.term ((ρ c).1, (ρ c).2 + i) = (s.val c)[i]
  apart : ∀ c d, c < s.cells → d < s.cells → c ≠ d → (ρ c).1 = (ρ d).1 →
    ∀ i j, i < (s.val c).length → j < (s.val d).length → (ρ c).2 + i ≠ (ρ d).2 + j
  opNone : ∀ x, s.op x = none → w.op x = none
  opSome : ∀ x c v, s.op x = some (c, v) → c < s.cells ∧
    ∃ hm, w.op x = some ⟨(ρ c).1, (ρ c).2, (s.val c).length, hm, v⟩
  batNone : ∀ X, s.bat X = none → w.bat X = none
  batSome : ∀ X cs, s.bat X = some cs → (∀ c ∈ cs, c < s.cells) ∧ ∃ buf rb,
    w.bat X = some ⟨buf, (cs.map s.val).flatten.length, rb⟩ ∧ rb < w.heap.nextRow ∧
    w.heap.row rb = rowPtrOf ((cs.map s.val).map List.length) ∧
    ∀ b (h : b < cs.length), ρ cs[b] = (buf, offset (cs.map s.val) b)
  rows : ∀ X Y H K, w.bat X = some H → w.bat Y = some K → H.rowBuf = K.rowBuf → s.bat X = s.bat Y

theorem opic_empty : OPic OWorld.empty OStore.empty fun _ => (0, 0) :=
  ⟨fun c h => absurd h (Nat.not_lt_zero c), fun c h => absurd h (Nat.not_lt_zero c), fun c _ h => absurd h (Nat.not_lt_zero c),
    fun _ _ => rfl, fun _ _ _ h => (by cases h), fun _ _ => rfl, fun _ _ h => (by cases h), fun _ _ _ _ h => (by cases h)⟩

variable {w : OWorld} {s : OStore} {ρ : Nat → Nat × Nat}

theorem OPic.terms (R : OPic w s ρ) {c : Nat} (hc : c < s.cells) (hm v : Bool) :
    HOp.terms w.heap ⟨(ρ c).1, (ρ c).2, (s.val c).length, hm, v⟩ = s.val c := by
  unfold HOp.terms
  apply List.ext_getElem
  · simp
  · intro i h1 h2
    simp only [List.getElem_map, List.getElem_range]
    exact R.read c hc i h2

theorem OPic.getOp (R : OPic w s ρ) {x : String} {c : Nat} {v : Bool} (h : s.op x = some (c, v)) :
    ∃ o, w.op x = some o ∧ o.terms w.heap = s.val c ∧ o.isView = v ∧ c < s.cells ∧ o.buf = (ρ c).1 ∧ o.off = (ρ c).2 ∧
      o.len = (s.val c).length := by
  obtain ⟨hc, hm, e⟩ := R.opSome x c v h
  exact ⟨_, e, R.terms hc hm v, rfl, hc, rfl, rfl, rfl⟩

theorem OPic.getBat (R : OPic w s ρ) {X : String} {cs : List Nat} (h : s.bat X = some cs) :
    ∃ H, w.bat X = some H ∧ H.value w.heap = OpB.ofLists (cs.map s.val) ∧ (∀ c ∈ cs, c < s.cells) ∧ H.rowBuf < w.heap.nextRow ∧
      ∀ b (hb : b < cs.length), ρ cs[b] = (H.buf, offset (cs.map s.val) b) := by
  obtain ⟨hc, buf, rb, e, hr, hrow, hρ⟩ := R.batSome X cs h
  refine ⟨_, e, Slots.eq ⟨hrow, ?_⟩, hc, hr, hρ⟩
  apply List.ext_getElem
  · simp [HBat.value]
  · intro i h1 h2
    obtain ⟨b, j, hb, hj, rfl⟩ := flat_dec h2
    have hb' : b < cs.length := by simpa using hb
    have h3 := List.getElem?_eq_some_iff.1 (flat_get hb hj)
    rw [h3.2]
    simp only [HBat.value, List.getElem_map, List.getElem_range] at hj ⊢
    have h4 := R.read cs[b] (hc _ (List.getElem_mem hb')) j hj
    rw [hρ b hb'] at h4
    exact h4

/-! ## the kinds of effects -/

theorem OPic.newOp (R : OPic w s ρ) (x : String) (o : Op) (hv : o.isView = false) :
    OPic (w.newOp x o) (s.fresh x o.terms) (Function.update ρ s.cells (w.heap.next, 0)) := by
  have old : ∀ c, c < s.cells → Function.update ρ s.cells (w.heap.next, 0) c = ρ c := fun c h => Function.update_of_ne (by omega) _ _
  have oldv : ∀ c, c < s.cells → (s.fresh x o.terms).val c = s.val c := fun c h => Function.update_of_ne (by omega) _ _
  have newv : (s.fresh x o.terms).val s.cells = o.terms := Function.update_self ..
  have maps : ∀ cs : List Nat, (∀ c ∈ cs, c < s.cells) → cs.map (s.fresh x o.terms).val = cs.map s.val :=
    fun cs h => List.map_congr_left fun c hc => oldv c (h c hc)
  refine ⟨?_, ?_, ?_, ?_, ?_, R.batNone, ?_, R.rows⟩
  · intro c hc
    rcases Nat.lt_succ_iff_lt_or_eq.1 hc with h | rfl
    · rw [old c h]; exact Nat.lt_succ_of_lt (R.alloc c h)
    · rw [Function.update_self]; exact Nat.lt_succ_self _
  · intro c hc i hi
    rcases Nat.lt_succ_iff_lt_or_eq.1 hc with h | rfl
    · simp only [old c h]
      have hi' : i < (s.val c).length := by rw [oldv c h] at hi; exact hi
      have := R.read c h i hi'
      have hne : (ρ c).1 ≠ w.heap.next := (R.alloc c h).ne
      simp only [OWorld.newOp, OHeap.alloc, if_neg hne, this]
      simp only [oldv c h]
    · simp only [Function.update_self, OWorld.newOp, OHeap.alloc, Nat.zero_add, if_true]
      simp only [newv] at hi
      rw [dif_pos hi]
      simp only [newv]
  · intro c d hc hd hne hb i j hi hj
    rcases Nat.lt_succ_iff_lt_or_eq.1 hc with h | rfl <;> rcases Nat.lt_succ_iff_lt_or_eq.1 hd with h' | rfl
    · rw [old c h, old d h'] at *
      rw [oldv c h] at hi; rw [oldv d h'] at hj
      exact R.apart c d h h' hne hb i j hi hj
    · rw [old c h, Function.update_self] at hb
      exact absurd hb (R.alloc c h).ne
    · rw [old d h', Function.update_self] at hb
      exact absurd hb.symm (R.alloc d h').ne
    · exact absurd rfl hne
  · intro y hy
    simp only [OStore.fresh, OWorld.newOp] at hy ⊢
    by_cases e : y = x
    · subst e; simp at hy
    · rw [Function.update_of_ne e] at hy ⊢; exact R.opNone y hy
  · intro y c v hy
    simp only [OStore.fresh] at hy
    by_cases e : y = x
    · subst e
      rw [Function.update_self] at hy
      cases hy
      refine ⟨Nat.lt_succ_self _, o.hermitian, ?_⟩
      simp only [OWorld.newOp, Function.update_self, newv, hv]
    · rw [Function.update_of_ne e] at hy
      obtain ⟨h1, hm, h2⟩ := R.opSome y c v hy
      refine ⟨Nat.lt_succ_of_lt h1, hm, ?_⟩
      simp only [OWorld.newOp, Function.update_of_ne e, old c h1, oldv c h1]
      exact h2
  · intro X cs hX
    obtain ⟨h1, buf, rb, e, hr, hrow, hρ⟩ := R.batSome X cs hX
    refine ⟨fun c hc => Nat.lt_succ_of_lt (h1 c hc), buf, rb, ?_, hr, ?_, ?_⟩
    · rw [maps cs h1]; exact e
    · rw [maps cs h1]; exact hrow
    · intro b hb
      rw [maps cs h1, old _ (h1 _ (List.getElem_mem hb))]
      exact hρ b hb

theorem OPic.bind (R : OPic w s ρ) (x : String) {c : Nat} {v hm : Bool} (hc : c < s.cells) :
    OPic { w with op := Function.update w.op x (some ⟨(ρ c).1, (ρ c).2, (s.val c).length, hm, v⟩) }
      { s with op := Function.update s.op x (some (c, v)) } ρ := by
  refine ⟨R.alloc, R.read, R.apart, ?_, ?_, R.batNone, R.batSome, R.rows⟩
  · intro y hy
    by_cases e : y = x
    · subst e; simp at hy
    · simp only [Function.update_of_ne e] at hy ⊢; exact R.opNone y hy
  · intro y d v' hy
    by_cases e : y = x
    · subst e
      simp only [Function.update_self] at hy ⊢
      cases hy
      exact ⟨hc, hm, rfl⟩
    · simp only [Function.update_of_ne e] at hy ⊢; exact R.opSome y d v' hy

theorem OPic.share (R : OPic w s ρ) (x : String) {y : String} {c : Nat} {v : Bool} {o : HOp} (hy : s.op y = some (c, v))
    (ho : w.op y = some o) :
    OPic { w with op := Function.update w.op x (some o) } { s with op := Function.update s.op x (some (c, v)) } ρ := by
  obtain ⟨hc, hm, e⟩ := R.opSome y c v hy
  rw [ho] at e
  cases e
  exact R.bind x hc

theorem OPic.update (R : OPic w s ρ) {x : String} {c : Nat} {v : Bool} {o : HOp} {r : Op} (hx : s.op x = some (c, v))
    (ho : w.op x = some o) (hl : r.terms.length = (s.val c).length) (hv : r.isView = o.isView) :
    OPic (w.update x o r) (s.set c r.terms) ρ := by
  obtain ⟨hc, hm, e⟩ := R.opSome x c v hx
  rw [ho] at e
  cases e
  have lens : ∀ d, ((s.set c r.terms).val d).length = (s.val d).length := by
    intro d
    by_cases e : d = c
    · subst e; simp only [OStore.set, Function.update_self, hl]
    · simp only [OStore.set, Function.update_of_ne e]
  have maps : ∀ cs : List Nat, (cs.map (s.set c r.terms).val).map List.length = (cs.map s.val).map List.length := by
    intro cs
    rw [List.map_map, List.map_map]
    exact List.map_congr_left fun d _ => lens d
  have flat : ∀ cs : List Nat, (cs.map (s.set c r.terms).val).flatten.length = (cs.map s.val).flatten.length := by
    intro cs
    rw [List.length_flatten, List.length_flatten, maps]
  refine ⟨R.alloc, ?_, ?_, ?_, ?_, R.batNone, ?_, R.rows⟩
  · intro d hd i hi
    by_cases e : d = c
    · subst e
      simp only [OWorld.update, OHeap.store]
      have hi' : i < r.terms.length := by rw [lens] at hi; omega
      rw [if_pos ⟨trivial, by omega⟩, dif_pos (by omega)]
      simp only [OStore.set, Function.update_self]
      congr 1
      omega
    · simp only [OWorld.update, OHeap.store]
      have hi' : i < (s.val d).length := by rw [lens] at hi; exact hi
      have h0 := R.read d hd i hi'
      have : w.heap.term ((ρ d).1, (ρ d).2 + i) = ((s.set c r.terms).val d)[i] := by
        rw [h0]; simp only [OStore.set, Function.update_of_ne e]
      split
      · next h =>
        split
        · next h2 =>
          exfalso
          refine R.apart d c hd hc e h.1 i ((ρ d).2 + i - (ρ c).2) hi' (by omega) (by omega)
        · exact this
      · exact this
  · intro a b ha hb hne he i j hi hj
    rw [lens] at hi hj
    exact R.apart a b ha hb hne he i j hi hj
  · intro y hy
    by_cases e : y = x
    · subst e; exact absurd (hx.symm.trans hy) (by simp)
    · simp only [OWorld.update, Function.update_of_ne e]; exact R.opNone y hy
  · intro y d v' hy
    by_cases e : y = x
    · subst e
      have : some (c, v) = some (d, v') := hx.symm.trans hy
      cases this
      refine ⟨hc, r.hermitian, ?_⟩
      simp only [OWorld.update, Function.update_self, hv]
      rw [lens]
    · simp only [OWorld.update, Function.update_of_ne e]
      obtain ⟨h1, hm', h2⟩ := R.opSome y d v' hy
      exact ⟨h1, hm', by rw [lens]; exact h2⟩
  · intro X cs hX
    obtain ⟨h1, buf, rb, e, hr, hrow, hρ⟩ := R.batSome X cs hX
    refine ⟨h1, buf, rb, ?_, hr, ?_, ?_⟩
    · rw [flat]; exact e
    · rw [maps]; exact hrow
    · intro b hb
      rw [hρ b hb]
      unfold offset
      rw [maps]

/-- where the cells are after a new batch has been made -/
def batPlace (s : OStore) (ρ : Nat → Nat × Nat) (buf : Nat) (ls : List (List PauliOp)) (c : Nat) : Nat × Nat :=
  if s.cells ≤ c then (buf, offset ls (c - s.cells)) else ρ c

theorem freshBatch_old (s : OStore) (X : String) (ls : List (List PauliOp)) {c : Nat} (h : c < s.cells) :
    (s.freshBatch X ls).val c = s.val c := by
  simp only [OStore.freshBatch]
  rw [dif_neg (by omega)]

theorem freshBatch_new (s : OStore) (X : String) (ls : List (List PauliOp)) {b : Nat} (h : b < ls.length) :
    (s.freshBatch X ls).val (s.cells + b) = ls[b] := by
  simp only [OStore.freshBatch]
  rw [dif_pos ⟨by omega, by omega⟩]
  congr 1
  omega

theorem freshBatch_map (s : OStore) (X : String) (ls : List (List PauliOp)) :
    ((List.range ls.length).map (s.cells + ·)).map (s.freshBatch X ls).val = ls := by
  apply List.ext_getElem
  · simp
  · intro b h1 h2
    simp only [List.getElem_map, List.getElem_range]
    exact freshBatch_new s X ls h2

/-- the parts of `OPic` about the cells, after a new array with the terms of a batch -/
theorem OPic.batCells (R : OPic w s ρ) (X : String) (ls : List (List PauliOp)) :
    (∀ c, c < (s.freshBatch X ls).cells → (batPlace s ρ w.heap.next ls c).1 < w.heap.next + 1) ∧
    (∀ c, c < (s.freshBatch X ls).cells → ∀ i (h : i < ((s.freshBatch X ls).val c).length),
      (w.heap.alloc ls.flatten).term ((batPlace s ρ w.heap.next ls c).1, (batPlace s ρ w.heap.next ls c).2 + i) =
        ((s.freshBatch X ls).val c)[i]) ∧
    (∀ c d, c < (s.freshBatch X ls).cells → d < (s.freshBatch X ls).cells → c ≠ d →
      (batPlace s ρ w.heap.next ls c).1 = (batPlace s ρ w.heap.next ls d).1 →
      ∀ i j, i < ((s.freshBatch X ls).val c).length → j < ((s.freshBatch X ls).val d).length →
        (batPlace s ρ w.heap.next ls c).2 + i ≠ (batPlace s ρ w.heap.next ls d).2 + j) := by
  have old : ∀ c, c < s.cells → batPlace s ρ w.heap.next ls c = ρ c := fun c h => if_neg (by omega)
  have new : ∀ b, batPlace s ρ w.heap.next ls (s.cells + b) = (w.heap.next, offset ls b) := fun b => by
    unfold batPlace; rw [if_pos (by omega)]; congr 2; omega
  have split : ∀ c, c < (s.freshBatch X ls).cells → c < s.cells ∨ ∃ b, b < ls.length ∧ c = s.cells + b := by
    intro c hc
    simp only [OStore.freshBatch] at hc
    by_cases h : c < s.cells
    · exact Or.inl h
    · exact Or.inr ⟨c - s.cells, by omega, by omega⟩
  refine ⟨?_, ?_, ?_⟩
  · intro c hc
    rcases split c hc with h | ⟨b, hb, rfl⟩
    · rw [old c h]; exact Nat.lt_succ_of_lt (R.alloc c h)
    · rw [new]; exact Nat.lt_succ_self _
  · intro c hc i hi
    rcases split c hc with h | ⟨b, hb, rfl⟩
    · simp only [old c h]
      have hi' : i < (s.val c).length := by rw [freshBatch_old s X ls h] at hi; exact hi
      have hne : (ρ c).1 ≠ w.heap.next := (R.alloc c h).ne
      simp only [OHeap.alloc, if_neg hne, R.read c h i hi', freshBatch_old s X ls h]
    · have hi' : i < ls[b].length := by rw [freshBatch_new s X ls hb] at hi; exact hi
      simp only [new, OHeap.alloc, if_true]
      have h3 := List.getElem?_eq_some_iff.1 (flat_get hb hi')
      rw [dif_pos h3.1, h3.2]
      simp only [freshBatch_new s X ls hb]
  · intro c d hc hd hne hb i j hi hj
    rcases split c hc with h | ⟨b, hb1, rfl⟩ <;> rcases split d hd with h' | ⟨b', hb2, rfl⟩
    · rw [old c h, old d h'] at *
      rw [freshBatch_old s X ls h] at hi; rw [freshBatch_old s X ls h'] at hj
      exact R.apart c d h h' hne hb i j hi hj
    · rw [old c h, new] at hb
      exact absurd hb (R.alloc c h).ne
    · rw [old d h', new] at hb
      exact absurd hb.symm (R.alloc d h').ne
    · rw [freshBatch_new s X ls hb1] at hi
      rw [freshBatch_new s X ls hb2] at hj
      rw [new, new]
      intro e
      have key : ∀ a b, a < b → b ≤ ls.length → ∀ k (hk : a < ls.length), k < ls[a].length → offset ls a + k < offset ls b := by
        intro a b hab hb
        induction b with
        | zero => omega
        | succ b ih =>
          intro k hk hkl
          have hs := offset_succ (l := ls) (b := b) (by omega)
          rcases Nat.lt_succ_iff_lt_or_eq.1 hab with h | rfl
          · have := ih h (by omega) k hk hkl
            omega
          · omega
      rcases Nat.lt_or_ge b b' with h | h
      · have := key b b' h (by omega) i hb1 hi
        simp only at e; omega
      · have := key b' b (by omega) (by omega) j hb2 hj
        simp only at e; omega

theorem OPic.batRest (R : OPic w s ρ) (X : String) (ls : List (List PauliOp)) :
    (∀ x c v, s.op x = some (c, v) → c < (s.freshBatch X ls).cells ∧
      ∃ hm, w.op x = some ⟨(batPlace s ρ w.heap.next ls c).1, (batPlace s ρ w.heap.next ls c).2, ((s.freshBatch X ls).val c).length, hm, v⟩) ∧
    (∀ Y cs, s.bat Y = some cs → (∀ c ∈ cs, c < (s.freshBatch X ls).cells) ∧ cs.map (s.freshBatch X ls).val = cs.map s.val ∧
      ∀ b (h : b < cs.length), batPlace s ρ w.heap.next ls cs[b] = ρ cs[b]) := by
  have old : ∀ c, c < s.cells → batPlace s ρ w.heap.next ls c = ρ c := fun c h => if_neg (by omega)
  have le : ∀ c, c < s.cells → c < (s.freshBatch X ls).cells := fun c h => by simp only [OStore.freshBatch]; omega
  refine ⟨fun x c v h => ?_, fun Y cs h => ?_⟩
  · obtain ⟨hc, hm, e⟩ := R.opSome x c v h
    exact ⟨le c hc, hm, by rw [old c hc, freshBatch_old s X ls hc]; exact e⟩
  · obtain ⟨hc, -⟩ := R.batSome Y cs h
    exact ⟨fun c h => le c (hc c h), List.map_congr_left fun c h => freshBatch_old s X ls (hc c h),
      fun b hb => old _ (hc _ (List.getElem_mem hb))⟩

theorem OPic.newBat (R : OPic w s ρ) (X : String) (ls : List (List PauliOp)) :
    OPic (w.newBat X (OpB.ofLists ls)) (s.freshBatch X ls) (batPlace s ρ w.heap.next ls) := by
  obtain ⟨c1, c2, c3⟩ := R.batCells X ls
  obtain ⟨c4, c5⟩ := R.batRest X ls
  refine ⟨c1, c2, c3, R.opNone, c4, ?_, ?_, ?_⟩
  · intro Y hY
    simp only [OStore.freshBatch, OWorld.newBat] at hY ⊢
    by_cases e : Y = X
    · subst e; simp at hY
    · rw [Function.update_of_ne e] at hY ⊢; exact R.batNone Y hY
  · intro Y cs hY
    by_cases e : Y = X
    · subst e
      simp only [OStore.freshBatch, Function.update_self, Option.some.injEq] at hY
      subst hY
      refine ⟨?_, w.heap.next, w.heap.nextRow, ?_, Nat.lt_succ_self _, ?_, ?_⟩
      · intro c hc
        obtain ⟨b, hb, rfl⟩ := List.mem_map.1 hc
        simp only [OStore.freshBatch]
        exact Nat.add_lt_add_left (List.mem_range.1 hb) _
      · rw [freshBatch_map]
        simp only [OWorld.newBat, Function.update_self, OpB.ofLists]
      · rw [freshBatch_map]
        exact Function.update_self ..
      · intro b hb
        rw [freshBatch_map]
        simp only [List.getElem_map, List.getElem_range, batPlace]
        rw [if_pos (by omega)]
        congr 2
        omega
    · have hY' : s.bat Y = some cs := by simpa [OStore.freshBatch, Function.update_of_ne e] using hY
      obtain ⟨d1, d2, d3⟩ := c5 Y cs hY'
      obtain ⟨h1, buf, rb, e1, hr, hrow, hρ⟩ := R.batSome Y cs hY'
      refine ⟨d1, buf, rb, ?_, Nat.lt_succ_of_lt hr, ?_, fun b hb => ?_⟩
      · rw [d2]; simp only [OWorld.newBat, Function.update_of_ne e]; exact e1
      · rw [d2]; simp only [OWorld.newBat, OHeap.allocRow, OHeap.alloc]
        rw [Function.update_of_ne hr.ne]; exact hrow
      · rw [d2, d3 b hb]; exact hρ b hb
  · intro Y Z H K hY hZ hr
    have lt : ∀ Y H, w.bat Y = some H → H.rowBuf < w.heap.nextRow := by
      intro Y H h
      cases hs : s.bat Y with
      | none => rw [R.batNone Y hs] at h; cases h
      | some cs =>
        obtain ⟨_, buf, rb, e1, hr, _⟩ := R.batSome Y cs hs
        rw [e1] at h; cases h; exact hr
    simp only [OWorld.newBat, OStore.freshBatch] at hY hZ ⊢
    by_cases e : Y = X <;> by_cases e' : Z = X
    · rw [e, e']
    · subst e
      rw [Function.update_self] at hY
      rw [Function.update_of_ne e'] at hZ
      cases hY
      have := lt Z K hZ
      simp only at hr; omega
    · subst e'
      rw [Function.update_self] at hZ
      rw [Function.update_of_ne e] at hY
      cases hZ
      have := lt Y H hY
      simp only at hr; omega
    · rw [Function.update_of_ne e] at hY ⊢
      rw [Function.update_of_ne e'] at hZ ⊢
      exact R.rows Y Z H K hY hZ hr

theorem OPic.reload (R : OPic w s ρ) {X : String} {cs : List Nat} {H : HBat} (ls : List (List PauliOp)) (hX : s.bat X = some cs)
    (hH : w.bat X = some H) (only : ∀ Y, s.bat Y = some cs → Y = X) :
    OPic (w.reload X H (OpB.ofLists ls)) (s.freshBatch X ls) (batPlace s ρ w.heap.next ls) := by
  obtain ⟨c1, c2, c3⟩ := R.batCells X ls
  obtain ⟨c4, c5⟩ := R.batRest X ls
  obtain ⟨_, buf0, rb0, e0, hr0, _⟩ := R.batSome X cs hX
  rw [hH] at e0
  cases e0
  refine ⟨c1, c2, c3, R.opNone, c4, ?_, ?_, ?_⟩
  · intro Y hY
    simp only [OStore.freshBatch, OWorld.reload] at hY ⊢
    by_cases e : Y = X
    · subst e; simp at hY
    · rw [Function.update_of_ne e] at hY ⊢; exact R.batNone Y hY
  · intro Y ds hY
    by_cases e : Y = X
    · subst e
      simp only [OStore.freshBatch, Function.update_self, Option.some.injEq] at hY
      subst hY
      refine ⟨?_, w.heap.next, rb0, ?_, hr0, ?_, ?_⟩
      · intro c hc
        obtain ⟨b, hb, rfl⟩ := List.mem_map.1 hc
        simp only [OStore.freshBatch]
        exact Nat.add_lt_add_left (List.mem_range.1 hb) _
      · rw [freshBatch_map]
        simp only [OWorld.reload, Function.update_self, OpB.ofLists]
      · rw [freshBatch_map]
        simp only [OWorld.reload, Function.update_self, OpB.ofLists]
      · intro b hb
        rw [freshBatch_map]
        simp only [List.getElem_map, List.getElem_range, batPlace]
        rw [if_pos (by omega)]
        congr 2
        omega
    · have hY' : s.bat Y = some ds := by simpa [OStore.freshBatch, Function.update_of_ne e] using hY
      obtain ⟨d1, d2, d3⟩ := c5 Y ds hY'
      obtain ⟨h1, buf, rb, e1, hr, hrow, hρ⟩ := R.batSome Y ds hY'
      have hne : rb ≠ rb0 := by
        intro he
        have := R.rows Y X _ _ e1 hH he
        rw [hX] at this
        exact e (only Y this)
      refine ⟨d1, buf, rb, ?_, hr, ?_, fun b hb => ?_⟩
      · rw [d2]; simp only [OWorld.reload, Function.update_of_ne e]; exact e1
      · rw [d2]; simp only [OWorld.reload]
        rw [Function.update_of_ne hne]; exact hrow
      · rw [d2, d3 b hb]; exact hρ b hb
  · intro Y Z K K' hY hZ hr
    have key : ∀ Z K, Z ≠ X → w.bat Z = some K → K.rowBuf = rb0 → False := by
      intro Z K hne hZ hr
      have := R.rows Z X _ _ hZ hH hr
      rw [hX] at this
      exact hne (only Z this)
    simp only [OWorld.reload, OStore.freshBatch] at hY hZ ⊢
    by_cases e : Y = X <;> by_cases e' : Z = X
    · rw [e, e']
    · subst e
      rw [Function.update_self] at hY
      rw [Function.update_of_ne e'] at hZ
      cases hY
      exact (key Z K' e' hZ hr.symm).elim
    · subst e'
      rw [Function.update_self] at hZ
      rw [Function.update_of_ne e] at hY
      cases hZ
      exact (key Y K e hY hr).elim
    · rw [Function.update_of_ne e] at hY ⊢
      rw [Function.update_of_ne e'] at hZ ⊢
      exact R.rows Y Z K K' hY hZ hr

theorem OPic.shareBat (R : OPic w s ρ) (X : String) {Y : String} {cs : List Nat} {H : HBat} (hY : s.bat Y = some cs)
    (hH : w.bat Y = some H) :
    OPic { w with bat := Function.update w.bat X (some H) } { s with bat := Function.update s.bat X (some cs) } ρ := by
  refine ⟨R.alloc, R.read, R.apart, R.opNone, R.opSome, ?_, ?_, ?_⟩
  · intro Z hZ
    by_cases e : Z = X
    · subst e; simp at hZ
    · simp only [Function.update_of_ne e] at hZ ⊢; exact R.batNone Z hZ
  · intro Z ds hZ
    by_cases e : Z = X
    · subst e
      simp only [Function.update_self, Option.some.injEq] at hZ ⊢
      subst hZ
      have := R.batSome Y cs hY
      rw [hH] at this
      simpa using this
    · simp only [Function.update_of_ne e] at hZ ⊢; exact R.batSome Z ds hZ
  · intro Z Z' K K' hZ hZ' hr
    by_cases e : Z = X <;> by_cases e' : Z' = X
    · rw [e, e']
    · subst e
      simp only [Function.update_self, Function.update_of_ne e'] at hZ hZ' ⊢
      cases hZ
      rw [← hY]; exact R.rows Y Z' H K' hH hZ' hr
    · subst e'
      simp only [Function.update_self, Function.update_of_ne e] at hZ hZ' ⊢
      cases hZ'
      rw [← hY]; exact R.rows Z Y K H hZ hH hr
    · simp only [Function.update_of_ne e, Function.update_of_ne e'] at hZ hZ' ⊢
      exact R.rows Z Z' K K' hZ hZ' hr

/-! ## one command -/

/-- what the program does with a command, given what the specification says about it -/
def StepOK (w : OWorld) (c : OCmd) : OOutcome → Prop
  | .done s' => ∃ w' ρ', OPic w' s' ρ' ∧ ∀ v f, w.Exec c v f ↔ v = w' ∧ f = none
  | .refused => ∃ msg, ∀ v f, w.Exec c v f ↔ v = w ∧ f = some (.throw msg)
  | .unspecified => True

theorem step_newOp (R : OPic w s ρ) {c : OCmd} (x : String) {o : Op} {ts : List PauliOp} (ht : o.terms = ts) (hv : o.isView = false)
    (h : ∀ v f, w.Exec c v f ↔ v = w.newOp x o ∧ f = none) : StepOK w c (.done (s.fresh x ts)) :=
  ht ▸ ⟨_, _, R.newOp x o hv, h⟩

theorem step_newBat (R : OPic w s ρ) {c : OCmd} (X : String) {o : OpB} {ls : List (List PauliOp)} (ho : Slots o ls)
    (h : ∀ v f, w.Exec c v f ↔ v = w.newBat X o ∧ f = none) : StepOK w c (.done (s.freshBatch X ls)) := by
  rw [ho.eq] at h
  exact ⟨_, _, R.newBat X ls, h⟩

theorem step_update (R : OPic w s ρ) {c : OCmd} {x : String} {d : Nat} {v : Bool} {o : HOp} {r : Op} {ts : List PauliOp}
    (hx : s.op x = some (d, v)) (ho : w.op x = some o) (ht : r.terms = ts) (hl : ts.length = (s.val d).length)
    (hv : r.isView = o.isView) (h : ∀ v f, w.Exec c v f ↔ v = w.update x o r ∧ f = none) : StepOK w c (.done (s.set d ts)) := by
  subst ht
  exact ⟨_, _, R.update hx ho hl hv, h⟩

theorem OPic.handles (R : OPic w s ρ) : ∀ {ys : List String} {ls : List (List PauliOp)}, s.lists ys = some ls →
    ∃ os, w.handles ys = some os ∧ os.map (fun o => (o.value w.heap).terms) = ls
  | [], ls, h => by cases h; exact ⟨[], rfl, rfl⟩
  | y :: ys, ls, h => by
    unfold OStore.lists at h
    cases hy : s.op y with
    | none => rw [hy] at h; simp at h
    | some cv =>
      obtain ⟨c, v⟩ := cv
      cases hl : s.lists ys with
      | none => rw [hy, hl] at h; simp at h
      | some l =>
        rw [hy, hl] at h
        simp only [Option.some.injEq] at h
        obtain ⟨os, h1, h2⟩ := R.handles hl
        obtain ⟨o, ho, ht, _⟩ := R.getOp hy
        refine ⟨o :: os, ?_, ?_⟩
        · unfold OWorld.handles; rw [ho, h1]
        · rw [List.map_cons, h2, ← h]; congr 1

theorem ostep_op (R : OPic w s ρ) {c : OCmd} {x : String} {k : Nat → Bool → OOutcome}
    (h : ∀ d v o, s.op x = some (d, v) → w.op x = some o → (o.value w.heap).terms = s.val d → o.isView = v → d < s.cells → StepOK w c (k d v)) :
    StepOK w c (s.withOp x k) := by
  unfold OStore.withOp
  cases hx : s.op x with
  | none => trivial
  | some cv =>
    obtain ⟨d, v⟩ := cv
    obtain ⟨o, ho, ht, hv, hc, -⟩ := R.getOp hx
    exact h d v o hx ho ht hv hc

theorem ostep_bat (R : OPic w s ρ) {c : OCmd} {X : String} {k : List Nat → OOutcome}
    (h : ∀ cs H, s.bat X = some cs → w.bat X = some H → Slots (H.value w.heap) (cs.map s.val) → (∀ c ∈ cs, c < s.cells) →
      (∀ b (hb : b < cs.length), ρ cs[b] = (H.buf, offset (cs.map s.val) b)) → StepOK w c (k cs)) :
    StepOK w c (s.withBat X k) := by
  unfold OStore.withBat
  cases hX : s.bat X with
  | none => trivial
  | some cs =>
    obtain ⟨H, hH, hval, hc, -, hρ⟩ := R.getBat hX
    exact h cs H hX hH (by rw [hval]; exact slots_ofLists _) hc hρ

theorem slots_map {o : OpB} {l : List (List PauliOp)} (h : Slots o l) (g : PauliOp → PauliOp) :
    Slots ⟨o.rowPtr, o.ops.map g⟩ (l.map fun ts => ts.map g) := by
  refine ⟨?_, ?_⟩
  · rw [show (⟨o.rowPtr, o.ops.map g⟩ : OpB).rowPtr = o.rowPtr from rfl, h.row, List.map_map]
    congr 1
    exact List.map_congr_left fun a _ => by simp
  · rw [show (⟨o.rowPtr, o.ops.map g⟩ : OpB).ops = o.ops.map g from rfl, h.ops, List.map_flatten]

theorem binary_refused {o t : OpB} {l lt : List (List PauliOp)} (ho : Slots o l) (ht : Slots t lt) (h : ¬ l.length = lt.length) :
    ∃ msg, o.binaryCheck t = .error (.throw msg) := by
  unfold OpB.binaryCheck
  rw [ho.rowLength, ht.rowLength, if_pos (by omega)]
  exact ⟨_, rfl⟩

theorem exec_step (R : OPic w s ρ) (c : OCmd) : StepOK w c (s.step codeNorm c) := by
  cases c with
  | new x ts => exact step_newOp R x (o := Op.ofTerms ts) rfl rfl fun v f => Iff.rfl
  | share x y =>
    refine ostep_op R fun d v o hy ho ht hv hc => ?_
    exact ⟨_, _, R.share x hy ho, fun v f => by simp only [OWorld.Exec, ho]⟩
  | copy x y =>
    refine ostep_op R fun d v o hy ho ht hv hc => ?_
    exact step_newOp R x (o := (o.value w.heap).copy) ht rfl fun v f => by simp only [OWorld.Exec, ho]
  | load x ts =>
    refine ostep_op R fun d v o hx ho ht hv hc => ?_
    split
    · next hl =>
      have h1 : (o.value w.heap).load ts = .ok ⟨ts, realCoefs ts, o.isView⟩ := by
        unfold Op.load; rw [ht, if_neg (by simpa using hl)]; rfl
      exact step_update R hx ho (r := ⟨ts, realCoefs ts, o.isView⟩) rfl hl rfl fun v f => by
        simp only [OWorld.Exec, ho, h1, OWorld.After]
    · next hl =>
      obtain ⟨msg, h1⟩ : ∃ msg, (o.value w.heap).load ts = .error (.throw msg) :=
        ⟨_, by unfold Op.load; rw [ht, if_pos hl]⟩
      exact ⟨msg, fun v f => by simp only [OWorld.Exec, ho, h1, OWorld.After]⟩
  | optimize x =>
    refine ostep_op R fun d v o hx ho ht hv hc => ?_
    split
    · next h =>
      obtain ⟨msg, h1⟩ : ∃ msg, (o.value w.heap).optimize = .error (.throw msg) :=
        ⟨_, by unfold Op.optimize; rw [if_pos]; show o.isView = true; rw [hv]; exact h⟩
      exact ⟨msg, fun v f => by simp only [OWorld.Exec, ho, h1, OWorld.After]⟩
    · next h =>
      have h1 : (o.value w.heap).optimize = .ok (Op.ofTerms (codeNorm (s.val d))) := by
        unfold Op.optimize; rw [if_neg, ht]
        · rfl
        · show ¬ o.isView = true; rw [hv]; exact h
      exact step_newOp R x (o := Op.ofTerms (codeNorm (s.val d))) rfl rfl fun v f => by simp only [OWorld.Exec, ho, h1, OWorld.After]
  | scaleAssign x a =>
    refine ostep_op R fun d v o hx ho ht hv hc => ?_
    exact step_update R hx ho (r := (o.value w.heap).scaleAssign a) (by unfold Op.scaleAssign; simp only [ht]) (by simp) rfl
      fun v f => by simp only [OWorld.Exec, ho]
  | mulPauliAssign x p =>
    refine ostep_op R fun d v o hx ho ht hv hc => ?_
    exact step_update R hx ho (r := (o.value w.heap).mulPauliAssign p) (by unfold Op.mulPauliAssign; simp only [ht]) (by simp) rfl
      fun v f => by simp only [OWorld.Exec, ho]
  | dagger x y =>
    refine ostep_op R fun d v o hx ho ht hv hc => ?_
    exact step_newOp R x (o := (o.value w.heap).dagger) (by unfold Op.dagger; simp only [ht]) rfl fun v f => by simp only [OWorld.Exec, ho]
  | scale x y a =>
    refine ostep_op R fun d v o hx ho ht hv hc => ?_
    exact step_newOp R x (o := (o.value w.heap).scale a) (by unfold Op.scale Op.scaleAssign Op.copy; simp only [ht]) rfl
      fun v f => by simp only [OWorld.Exec, ho]
  | mulPauli x y p =>
    refine ostep_op R fun d v o hx ho ht hv hc => ?_
    exact step_newOp R x (o := (o.value w.heap).mulPauli p) (by unfold Op.mulPauli Op.mulPauliAssign Op.copy; simp only [ht]) rfl
      fun v f => by simp only [OWorld.Exec, ho]
  | addPauli x y p =>
    refine ostep_op R fun d v o hx ho ht hv hc => ?_
    exact step_newOp R x (o := (o.value w.heap).addPauli p) (by unfold Op.addPauli; simp only [ht]) rfl
      fun v f => by simp only [OWorld.Exec, ho]
  | add x y z =>
    refine ostep_op R fun d v o hx ho ht hv hc => ostep_op R fun d' v' o' hx' ho' ht' hv' hc' => ?_
    exact step_newOp R x (o := (o.value w.heap).add (o'.value w.heap)) (by unfold Op.add; simp only [ht, ht']) rfl
      fun v f => by simp only [OWorld.Exec, ho, ho']
  | sub x y z =>
    refine ostep_op R fun d v o hx ho ht hv hc => ostep_op R fun d' v' o' hx' ho' ht' hv' hc' => ?_
    exact step_newOp R x (o := (o.value w.heap).sub (o'.value w.heap))
      (by unfold Op.sub Op.add Op.scale Op.scaleAssign Op.copy; simp only [ht, ht']) rfl
      fun v f => by simp only [OWorld.Exec, ho, ho']
  | mul x y z =>
    refine ostep_op R fun d v o hx ho ht hv hc => ostep_op R fun d' v' o' hx' ho' ht' hv' hc' => ?_
    exact step_newOp R x (o := (o.value w.heap).mul (o'.value w.heap)) (by unfold Op.mul; simp only [ht, ht']) rfl
      fun v f => by simp only [OWorld.Exec, ho, ho']
  | newB X ls => exact step_newBat R X (slots_ofLists ls) fun v f => Iff.rfl
  | ofOps X ys =>
    unfold OStore.step
    dsimp only
    cases hl : s.lists ys with
    | none => trivial
    | some ls =>
      obtain ⟨os, h1, h2⟩ := R.handles hl
      refine step_newBat R X (o := OpB.ofOps (os.map fun o => o.value w.heap)) ⟨?_, ?_⟩ fun v f => by simp only [OWorld.Exec, h1]
      · simp only [OpB.ofOps, ← h2, List.map_map, Function.comp_def]
      · simp only [OpB.ofOps, ← h2, List.map_map, Function.comp_def]
  | shareB X Y =>
    refine ostep_bat R fun cs H hY hH hs hc hρ => ?_
    exact ⟨_, _, R.shareBat X hY hH, fun v f => by simp only [OWorld.Exec, hH]⟩
  | copyB X Y =>
    refine ostep_bat R fun cs H hY hH hs hc hρ => ?_
    exact step_newBat R X (o := (H.value w.heap).copy) ⟨hs.row, hs.ops⟩ fun v f => by simp only [OWorld.Exec, hH]
  | loadB X ls =>
    refine ostep_bat R fun cs H hX hH hs hc hρ => ?_
    split
    · next hl =>
      split
      · trivial
      · next hno =>
        have h1 : (H.value w.heap).load ls = .ok (OpB.ofLists ls) := by
          unfold OpB.load
          rw [hs.rowLength, length_rowPtrOf, if_neg (by simp [hl])]
        refine ⟨_, _, R.reload ls hX hH fun Y hY => ?_, fun v f => by simp only [OWorld.Exec, hH, h1, OWorld.After]⟩
        by_contra hne
        exact hno ⟨Y, hne, hY⟩
    · next hl =>
      obtain ⟨msg, h1⟩ : ∃ msg, (H.value w.heap).load ls = .error (.throw msg) :=
        ⟨_, by unfold OpB.load; rw [hs.rowLength, length_rowPtrOf, if_pos (by simpa using hl)]⟩
      exact ⟨msg, fun v f => by simp only [OWorld.Exec, hH, h1, OWorld.After]⟩
  | daggerB X Y =>
    refine ostep_bat R fun cs H hY hH hs hc hρ => ?_
    have := slots_map hs PauliOp.dagger
    rw [List.map_map] at this
    exact step_newBat R X (o := (H.value w.heap).dagger) this fun v f => by simp only [OWorld.Exec, hH]
  | negB X Y =>
    refine ostep_bat R fun cs H hY hH hs hc hρ => ?_
    have := slots_map hs fun p => p.scale (-1)
    rw [List.map_map] at this
    exact step_newBat R X (o := (H.value w.heap).neg) this fun v f => by simp only [OWorld.Exec, hH]
  | addB X Y Z =>
    refine ostep_bat R fun cs H hY hH hs hc hρ => ostep_bat R fun ds K hZ hK hs' hc' hρ' => ?_
    have hlen : (cs.map s.val).length = (ds.map s.val).length ↔ cs.length = ds.length := by simp
    split
    · next hl =>
      have hok := (batchCheck_ok hs hs').2 (hlen.2 hl)
      rw [show List.zipWith (fun c d => s.val c ++ s.val d) cs ds = List.zipWith (· ++ ·) (cs.map s.val) (ds.map s.val) by
        rw [List.zipWith_map]]
      refine step_newBat R X (slots_ofLists _) fun v f => ?_
      simp only [OWorld.Exec, hH, hK, hok, adds_spec hs hs', hlen.2 hl, true_and]
      constructor
      · rintro ⟨r, rfl, h⟩; exact h
      · intro h; exact ⟨_, rfl, h⟩
    · next hl =>
      obtain ⟨msg, h1⟩ := binary_refused hs hs' (fun h => hl (hlen.1 h))
      exact ⟨msg, fun v f => by simp only [OWorld.Exec, hH, hK, h1]⟩
  | mulB X Y Z =>
    refine ostep_bat R fun cs H hY hH hs hc hρ => ostep_bat R fun ds K hZ hK hs' hc' hρ' => ?_
    have hlen : (cs.map s.val).length = (ds.map s.val).length ↔ cs.length = ds.length := by simp
    split
    · next hl =>
      have hok := (batchCheck_ok hs hs').2 (hlen.2 hl)
      rw [show List.zipWith (fun c d => (s.val c).flatMap fun p => (s.val d).map fun q => p.mul q) cs ds =
        List.zipWith products (cs.map s.val) (ds.map s.val) by rw [List.zipWith_map]; rfl]
      refine step_newBat R X (slots_ofLists _) fun v f => ?_
      simp only [OWorld.Exec, hH, hK, hok, muls_spec hs hs', hlen.2 hl, true_and]
      constructor
      · rintro ⟨r, rfl, h⟩; exact h
      · intro h; exact ⟨_, rfl, h⟩
    · next hl =>
      obtain ⟨msg, h1⟩ := binary_refused hs hs' (fun h => hl (hlen.1 h))
      exact ⟨msg, fun v f => by simp only [OWorld.Exec, hH, hK, h1]⟩
  | view x X i =>
    refine ostep_bat R fun cs H hX hH hs hc hρ => ?_
    have hsz : (H.value w.heap).batchSize = cs.length := by rw [hs.size, List.length_map]
    split
    · next hi =>
      have hi' : i < (H.value w.heap).batchSize := hsz ▸ hi
      have h1 := hs.subview ⟨i, hi'⟩
      have h2 := hs.first ⟨i, hi'⟩
      simp only [List.getElem_map, h2] at h1
      have h3 := R.bind x (v := true) (hm := true) (hc cs[i] (List.getElem_mem hi))
      rw [hρ i hi] at h3
      refine ⟨_, _, h3, fun v f => ?_⟩
      simp only [OWorld.Exec, hH, dif_pos hi', h1, OWorld.After, h2]
    · next hi =>
      have hi' : ¬ i < (H.value w.heap).batchSize := hsz ▸ hi
      exact ⟨_, fun v f => by simp only [OWorld.Exec, hH, dif_neg hi']; exact Iff.rfl⟩
  | getAt x X i =>
    refine ostep_bat R fun cs H hX hH hs hc hρ => ?_
    have hsz : (H.value w.heap).batchSize = cs.length := by rw [hs.size, List.length_map]
    split
    · next hi =>
      have hi' : i < (H.value w.heap).batchSize := hsz ▸ hi
      have h1 := hs.subview ⟨i, hi'⟩
      simp only [List.getElem_map] at h1
      have h2 : (H.value w.heap).getOperatorAt i = .ok ⟨s.val cs[i], true, false⟩ := by
        unfold OpB.getOperatorAt; rw [dif_pos hi', h1]; rfl
      exact step_newOp R x (o := ⟨s.val cs[i], true, false⟩) rfl rfl fun v f => by simp only [OWorld.Exec, hH, h2, OWorld.After]
    · next hi =>
      have hi' : ¬ i < (H.value w.heap).batchSize := hsz ▸ hi
      obtain ⟨msg, h1⟩ : ∃ msg, (H.value w.heap).getOperatorAt i = .error (.throw msg) :=
        ⟨_, by unfold OpB.getOperatorAt; rw [dif_neg hi']⟩
      exact ⟨msg, fun v f => by simp only [OWorld.Exec, hH, h1, OWorld.After]⟩

/-! ## programs -/

/-- what a program does, given what the specification says about it -/
def RunOK (w : OWorld) (P : List OCmd) : OFinal → Prop
  | .finished s' => ∃ w' ρ', OPic w' s' ρ' ∧ ∀ v f, w.Run P v f ↔ v = w' ∧ f = none
  | .stopped s' => ∃ w' ρ' msg, OPic w' s' ρ' ∧ ∀ v f, w.Run P v f ↔ v = w' ∧ f = some (.throw msg)
  | .unspecified => True

theorem run_ok : ∀ (P : List OCmd) {w : OWorld} {s : OStore} {ρ : Nat → Nat × Nat}, OPic w s ρ → RunOK w P (s.run codeNorm P)
  | [], w, s, ρ, R => ⟨w, ρ, R, fun v f => ⟨fun h => by cases h; exact ⟨rfl, rfl⟩, fun h => by rw [h.1, h.2]; exact .nil w⟩⟩
  | c :: P, w, s, ρ, R => by
    have h := exec_step R c
    unfold OStore.run
    cases hc : s.step codeNorm c with
    | unspecified => trivial
    | refused =>
      rw [hc] at h
      obtain ⟨msg, h⟩ := h
      refine ⟨w, ρ, msg, R, fun v f => ⟨fun hr => ?_, fun hv => ?_⟩⟩
      · cases hr with
        | cons _ w1 _ _ _ _ h1 h2 => exact absurd ((h _ _).1 h1).2 (by simp)
        | stop _ _ _ _ e h1 => exact (h _ _).1 h1
      · rw [hv.1, hv.2]
        exact .stop _ _ _ _ _ ((h _ _).2 ⟨rfl, rfl⟩)
    | done s' =>
      rw [hc] at h
      obtain ⟨w', ρ', R', h⟩ := h
      have ih := run_ok P R'
      have key : ∀ v f, w.Run (c :: P) v f ↔ w'.Run P v f := by
        intro v f
        constructor
        · intro hr
          cases hr with
          | cons _ w1 _ _ _ _ h1 h2 => rw [((h _ _).1 h1).1] at h2; exact h2
          | stop _ _ _ _ e h1 => exact absurd ((h _ _).1 h1).2 (by simp)
        · intro hr
          exact .cons _ _ _ _ _ _ ((h _ _).2 ⟨rfl, rfl⟩) hr
      dsimp only
      revert ih
      cases s'.run codeNorm P with
      | unspecified => intro _; trivial
      | finished t =>
        rintro ⟨w2, ρ2, R2, h2⟩
        exact ⟨w2, ρ2, R2, fun v f => (key v f).trans (h2 v f)⟩
      | stopped t =>
        rintro ⟨w2, ρ2, msg, R2, h2⟩
        exact ⟨w2, ρ2, msg, R2, fun v f => (key v f).trans (h2 v f)⟩

end Verif.Proofs
