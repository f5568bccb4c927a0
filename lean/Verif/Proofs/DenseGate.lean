import Verif.Proofs.Dense
import Verif.Proofs.Operands

/-! # `gate::DenseMatrix` and `gate::SparseMatrix` -/

namespace Verif.Proofs
open Verif Verif.Spec Verif.Model
attribute [-simp] BitVec.getLsbD_eq_getElem

/-! ## reordering the matrix -/

theorem testBit_transformIndex (index : Nat) (os : List Nat) (j0 acc k : Nat) :
    (transformIndex index os j0 acc).testBit k =
      (acc.testBit k || match (if j0 ≤ k then os[k - j0]? else none) with
        | some o => index.testBit o
        | none => false) := by
  induction os generalizing j0 acc with
  | nil => simp [transformIndex]
  | cons o os ih =>
    rw [transformIndex, ih, Nat.testBit_or, Nat.testBit_shiftLeft, Nat.testBit_and, Nat.testBit_shiftRight]
    by_cases h1 : k < j0
    · rw [if_neg (by omega), if_neg (by omega)]
      simp [show ¬ k ≥ j0 by omega]
    · by_cases h2 : k = j0
      · subst h2
        rw [if_neg (by omega), if_pos (le_refl k)]
        simp
      · rw [if_pos (by omega), if_pos (by omega)]
        have e : k - j0 = (k - (j0 + 1)) + 1 := by omega
        have e2 : Nat.testBit 1 (k - j0) = false := by
          rw [e, Nat.testBit_succ]; simp
        rw [e2, e, List.getElem?_cons_succ]
        simp

theorem transformIndex_eq {ts : List Nat} (h : TargetsOK ts) (x : Nat) :
    transformIndex x (targetsOrder ts) 0 0 = reorder (sortQ ts) ts x := by
  have hs := sortQ_pairwise h.nodup
  have hs' : TargetsOK (sortQ ts) :=
    ⟨(sortQ_perm ts).nodup_iff.2 h.nodup, fun q hq => h.lt q (mem_sortQ.1 hq)⟩
  apply Nat.eq_of_testBit_eq
  intro k
  rw [testBit_transformIndex, reorder, testBit_getBits, if_pos (Nat.zero_le k), Nat.sub_zero, Nat.zero_testBit,
    Bool.false_or]
  unfold targetsOrder
  simp only [List.getElem?_map]
  cases hk : ts[k]? with
  | none => rfl
  | some q =>
    simp only [Option.map_some]
    have hm : q ∈ sortQ ts := mem_sortQ.2 (List.mem_of_getElem? hk)
    obtain ⟨l, hl, hlq⟩ := List.getElem_of_mem hm
    have hfi : (sortQ ts).findIdx (fun y => decide (¬ y < q)) = l := by
      rw [List.findIdx_eq hl]
      refine ⟨by simp [hlq], ?_⟩
      intro j hj
      have := List.pairwise_iff_getElem.1 hs j l (by omega) hl hj
      rw [hlq] at this
      simpa using this
    unfold sortQ at hfi
    rw [hfi, ← hlq, getLsbD_putBits_get 0 hs'.nodup hs'.lt _ hl]

theorem transformIndex_lt {ts : List Nat} (h : TargetsOK ts) (x : Nat) :
    transformIndex x (targetsOrder ts) 0 0 < 2 ^ ts.length := by
  rw [transformIndex_eq h]; exact getBits_lt _ _

theorem transformByOrder_ok {R : Type} {ts : List Nat} (h : TargetsOK ts) (M : DMat R)
    (hr : M.rows = 2 ^ ts.length) (hc : M.cols = 2 ^ ts.length) :
    transformByOrder M ts = .ok ⟨M.rows, M.rows,
      fun i j => M.entry (reorder (sortQ ts) ts i) (reorder (sortQ ts) ts j)⟩ := by
  unfold transformByOrder
  simp only [transformIndex_eq h]
  rw [if_pos]
  rw [List.all_eq_true]
  intro i _
  have := getBits_lt (putBits 0 (sortQ ts) i) ts
  exact decide_eq_true ⟨by unfold reorder; omega, by unfold reorder; omega⟩

theorem isSorted_sortQ {ts : List Nat} (h : isSorted ts = true) : sortQ ts = ts := by
  have hp : ts.Pairwise (fun a b => decide (a ≤ b) = true) := by
    induction ts with
    | nil => exact List.Pairwise.nil
    | cons a l ih =>
      cases l with
      | nil => simp
      | cons b l =>
        simp only [isSorted, Bool.and_eq_true, decide_eq_true_eq] at h
        have ih' := ih h.2
        rw [List.pairwise_cons]
        refine ⟨?_, ih'⟩
        intro c hc
        rcases List.mem_cons.1 hc with rfl | hc
        · simpa using h.1
        · have := List.rel_of_pairwise_cons ih' hc
          simp at this ⊢; omega
  exact List.mergeSort_of_pairwise hp

/-! ## the update of a dense gate -/

theorem two_pow_one {k : Nat} (h : 1 = 2 ^ k) : k = 0 := by
  rcases Nat.eq_zero_or_pos k with h0 | h0
  · exact h0
  · have := Nat.pow_le_pow_right (n := 2) (by omega) h0; omega

theorem denseUpdate_spec {L B n : Nat} (hL : LanesOK L) {ts cs vs : List Nat} {o : Operands}
    (hmk : mkOperands ts cs vs = .ok o) (hsize : B * 2 ^ n ≤ 2 ^ 64) (M : DMat ℂ)
    (hr : M.rows = 2 ^ ts.length) (hc : M.cols = 2 ^ ts.length) {d : Device ℂ}
    (hup : denseUpdate L B n M o = .ok d) (ψ : U64 → ℂ) :
    DRuns (B * 2 ^ n) d ψ (onState (B * 2 ^ n) (applyMat (sortQ ts) M.entry (ctrlList cs vs)) ψ) := by
  unfold denseUpdate at hup
  cases hck : checkWithinBounds o n with
  | error e => rw [hck] at hup; cases hup
  | ok u =>
    cases u
    rw [hck] at hup
    have ctx := ctx_of hmk hck hsize
    have hlen := length_sortQ ts
    have hs64 : ∀ q ∈ sortQ ts, q < n := fun q hq => ctx.tlt q (mem_sortQ.1 hq)
    change (if M.rows = 1 ∧ M.cols = 1 then _ else _) = _ at hup
    split at hup
    · rename_i h1
      injection hup with hup; subst hup
      have h0 : ts.length = 0 := two_pow_one (h1.1 ▸ hr)
      have hnil : sortQ ts = [] := List.length_eq_zero_iff.1 (by omega)
      have ht0 : o.t = 0 := by
        apply U64.ext; intro i _
        rw [ctx.maskOf.bits, hnil]; simp
      rw [hnil]
      exact zeroTarget_dspec hL (ht0 ▸ ctx.masks) _ ctx.ctrl _ _ rfl ψ
    · split at hup
      · rename_i h1
        injection hup with hup; subst hup
        have h0 : ts.length = 1 := Nat.pow_right_injective (le_refl 2) (by
          simp only; rw [← hr, h1.1])
        obtain ⟨q, rfl⟩ := List.length_eq_one_iff.1 h0
        have hq : sortQ [q] = [q] := by simp [sortQ]
        rw [hq]
        exact dense1_spec hL ctx.masks (isBit_of hmk) _ ctx.ctrl _ _ ⟨rfl, rfl, rfl, rfl⟩ ψ
      · split at hup
        · rename_i h1
          injection hup with hup; subst hup
          have h0 : ts.length = 2 := Nat.pow_right_injective (le_refl 2) (by
            simp only; rw [← hr, h1.1])
          obtain ⟨q0, q1, hq⟩ := List.length_eq_two.1 (hlen.trans h0)
          have hm := ctx.maskOf
          rw [hq] at hm ⊢
          have hlt : q0 < q1 := by simpa using hm.sorted
          refine dense2_spec ctx.masks hlt (hm.lt q1 (by simp)) ?_ _ ctx.ctrl _ _ (fun _ _ => rfl) ψ
          intro i; rw [hm.bits]; simp
        · split at hup
          · injection hup with hup; subst hup
            exact multiDense_spec ctx.masks ctx.hn ctx.maskOf hs64 _ ctx.ctrl _ ψ
          · cases hup

/-- the dense gate made by the factory acts as the given matrix on the targets in the given order -/
theorem mkDense_spec {L B n : Nat} (hL : LanesOK L) {ts cs vs : List Nat} {M : DMat ℂ} {u : Bool} {g : DenseGate}
    (hmk : mkDense ts M cs vs u = .ok g) (hsize : B * 2 ^ n ≤ 2 ^ 64) {d : Device ℂ}
    (hup : denseUpdate L B n g.mat g.o = .ok d) (ψ : U64 → ℂ) :
    DRuns (B * 2 ^ n) d ψ (onState (B * 2 ^ n) (applyMat ts M.entry (ctrlList cs vs)) ψ) := by
  unfold mkDense at hmk
  cases hcv : resizeAndCheckControlValues cs vs with
  | error e => rw [hcv] at hmk; cases hmk
  | ok vals =>
    rw [hcv] at hmk
    cases hs : shl1 ts.length with
    | error e => rw [hs] at hmk; cases hmk
    | ok dim =>
      rw [hs] at hmk
      have hdim : dim.toNat = 2 ^ ts.length := by
        unfold shl1 at hs
        split at hs
        · rename_i hlt
          injection hs with hs
          rw [← hs, BitVec.toNat_shiftLeft, Nat.shiftLeft_eq]
          have : 2 ^ ts.length < 2 ^ 64 := Nat.pow_lt_pow_right (by omega) hlt
          rw [show (1#64).toNat = 1 from rfl, Nat.one_mul, Nat.mod_eq_of_lt this]
        · cases hs
      change (if M.rows ≠ dim.toNat ∨ M.cols ≠ dim.toNat then _ else _) = _ at hmk
      split at hmk
      · cases hmk
      · rename_i hrc
        rw [hdim] at hrc
        push Not at hrc
        obtain ⟨hr, hc⟩ := hrc
        split at hmk
        · rename_i hsort
          cases ho : mkOperands ts cs vs with
          | error e => rw [ho] at hmk; cases hmk
          | ok o =>
            rw [ho] at hmk
            injection hmk with hmk
            subst hmk
            have := denseUpdate_spec hL ho hsize M hr hc hup ψ
            rwa [isSorted_sortQ hsort] at this
        · cases ht : transformByOrder M ts with
          | error e => rw [ht] at hmk; cases hmk
          | ok m =>
            rw [ht] at hmk
            cases ho : mkOperands ts cs vs with
            | error e =>
              change (mkOperands ts cs vs >>= _) = _ at hmk
              rw [ho] at hmk; cases hmk
            | ok o =>
              change (mkOperands ts cs vs >>= _) = _ at hmk
              rw [ho] at hmk
              injection hmk with hmk
              subst hmk
              obtain ⟨tn, tl, -⟩ := mkOperands_ok ho
              rw [transformByOrder_ok ⟨tn, tl⟩ M hr hc] at ht
              injection ht with ht
              subst ht
              have := denseUpdate_spec hL ho hsize ⟨M.rows, M.rows,
                fun i j => M.entry (reorder (sortQ ts) ts i) (reorder (sortQ ts) ts j)⟩ hr hr hup ψ
              rw [applyMat_sortQ ⟨tn, tl⟩]
              exact this

/-! ## sparse matrices -/

theorem outerIndex_length {α : Type} (s : Nat) (l : List (List α)) : (outerIndex s l).length = l.length + 1 := by
  induction l generalizing s with
  | nil => rfl
  | cons r l ih => simp [outerIndex, ih]

theorem outerIndex_get {α : Type} (s : Nat) (l : List (List α)) {r : Nat} (h : r ≤ l.length) :
    (outerIndex s l)[r]? = some (s + (l.take r).flatten.length) := by
  induction l generalizing s r with
  | nil =>
    have : r = 0 := by simpa using h
    subst this; simp [outerIndex]
  | cons x l ih =>
    cases r with
    | zero => simp [outerIndex]
    | succ r =>
      rw [outerIndex, List.getElem?_cons_succ, ih _ (by simpa using h)]
      simp [Nat.add_assoc]

theorem elemAt_of {α : Type} {l : List α} {i : Nat} {x : α} (h : l[i]? = some x) : elemAt l i = .ok x := by
  unfold elemAt; rw [h]

theorem mapM_ok {α β : Type} (f : α → Res β) (g : α → β) (l : List α) (h : ∀ x ∈ l, f x = .ok (g x)) :
    l.mapM f = .ok (l.map g) := by
  induction l with
  | nil => rfl
  | cons a l ih =>
    rw [List.mapM_cons, h a (by simp), ih fun x hx => h x (by simp [hx])]
    rfl

theorem mapM_range' {β : Type} (f : Nat → Res β) (l : List β) (s : Nat)
    (h : ∀ i (hi : i < l.length), f (s + i) = .ok l[i]) : (List.range' s l.length).mapM f = .ok l := by
  induction l generalizing s with
  | nil => rfl
  | cons a l ih =>
    have h0 := h 0 (by simp)
    simp only [Nat.add_zero, List.getElem_cons_zero] at h0
    rw [List.length_cons, List.range'_succ, List.mapM_cons, h0, ih (s + 1) ?_]
    · rfl
    · intro i hi
      have := h (i + 1) (by simpa using hi)
      rw [List.getElem_cons_succ] at this
      rw [← this]; congr 1; omega

theorem csr_row {R : Type} (m : SMat R) {r : Nat} (hr : r < m.stored.length) :
    (Csr.ofSMat m).row r = .ok (m.stored[r].map fun p => (p.2, p.1)) := by
  have hsplit : m.stored.flatten = (m.stored.take r).flatten ++ (m.stored[r] ++ (m.stored.drop (r + 1)).flatten) := by
    conv_lhs => rw [← List.take_append_drop r m.stored]
    rw [List.flatten_append, List.drop_eq_getElem_cons hr, List.flatten_cons]
  have hget : ∀ i, i < m.stored[r].length →
      m.stored.flatten[(m.stored.take r).flatten.length + i]? = m.stored[r][i]? := by
    intro i hi
    rw [hsplit, List.getElem?_append_right (by omega), Nat.add_sub_cancel_left, List.getElem?_append_left hi]
  unfold Csr.row
  have h1 : elemAt (Csr.ofSMat m).rowPtr r = .ok (m.stored.take r).flatten.length := by
    apply elemAt_of
    show (outerIndex 0 m.stored)[r]? = _
    rw [outerIndex_get 0 _ (by omega), Nat.zero_add]
  have h2 : elemAt (Csr.ofSMat m).rowPtr (r + 1) =
      .ok ((m.stored.take r).flatten.length + m.stored[r].length) := by
    apply elemAt_of
    show (outerIndex 0 m.stored)[r + 1]? = _
    rw [outerIndex_get 0 _ (by omega), Nat.zero_add, List.take_succ_eq_append_getElem hr]
    simp only [List.flatten_append, List.flatten_cons, List.flatten_nil, List.append_nil, List.length_append]
  rw [h1, h2]
  show List.mapM _ (List.range' _ _) = _
  rw [Nat.add_sub_cancel_left]
  have hl : m.stored[r].length = (m.stored[r].map fun p => (p.2, p.1)).length := by simp
  rw [hl]
  apply mapM_range'
  intro i hi
  have hi' : i < m.stored[r].length := by simpa using hi
  have hg := hget i hi'
  rw [List.getElem?_eq_getElem hi'] at hg
  have e1 : elemAt (Csr.ofSMat m).colIdx ((m.stored.take r).flatten.length + i) = .ok m.stored[r][i].1 := by
    apply elemAt_of
    show (m.stored.flatten.map Prod.fst)[_]? = _
    rw [List.getElem?_map, hg]; rfl
  have e2 : elemAt (Csr.ofSMat m).vals ((m.stored.take r).flatten.length + i) = .ok m.stored[r][i].2 := by
    apply elemAt_of
    show (m.stored.flatten.map Prod.snd)[_]? = _
    rw [List.getElem?_map, hg]; rfl
  rw [e1, e2, List.getElem_map]
  rfl

/-- a well-formed compressed matrix of the right size -/
structure SMat.OK {R : Type} (m : SMat R) (d : Nat) : Prop where
  rows : m.stored.length = d
  cols : m.cols = d
  inner : ∀ row ∈ m.stored, (∀ p ∈ row, p.1 < d) ∧ (row.map Prod.fst).Nodup

theorem sum_find {R : Type} [CommSemiring R] (row : List (Nat × R)) (d : Nat) (hlt : ∀ p ∈ row, p.1 < d)
    (hnd : (row.map Prod.fst).Nodup) (f : Nat → R) :
    ((row.map fun p => (p.2, p.1)).map fun p => p.1 * f p.2).sum =
      ∑ x ∈ Finset.range d, (match row.find? (fun p => decide (p.1 = x)) with
        | none => 0
        | some p => p.2) * f x := by
  induction row with
  | nil => simp
  | cons p row ih =>
    rw [List.map_cons, List.map_cons, List.sum_cons,
      ih (fun q hq => hlt q (by simp [hq])) (by simp only [List.map_cons, List.nodup_cons] at hnd; exact hnd.2)]
    have hp : p.1 ∈ Finset.range d := Finset.mem_range.2 (hlt p (by simp))
    rw [← Finset.add_sum_erase _ _ hp, ← Finset.add_sum_erase (Finset.range d) _ hp]
    have hnone : row.find? (fun q => decide (q.1 = p.1)) = none := by
      rw [List.find?_eq_none]
      intro q hq
      simp only [List.map_cons, List.nodup_cons] at hnd
      simp only [decide_eq_true_eq]
      intro e
      exact hnd.1 (e ▸ List.mem_map_of_mem hq)
    rw [hnone]
    simp only [List.find?_cons, decide_true, zero_mul, zero_add]
    congr 1
    apply Finset.sum_congr rfl
    intro x hx
    have hne : p.1 ≠ x := fun e => (Finset.mem_erase.1 hx).1 e.symm
    simp [hne]

/-- the sparse gate acts as the dense gate of the same matrix -/
theorem sparseUpdate_spec {B n : Nat} {ts cs vs : List Nat} {o : Operands}
    (hmk : mkOperands ts cs vs = .ok o) (hsize : B * 2 ^ n ≤ 2 ^ 64) (m : SMat ℂ)
    (hm : SMat.OK m (2 ^ ts.length)) {d : Device ℂ}
    (hup : sparseUpdate B n (.ofSMat m) o = .ok d) (ψ : U64 → ℂ) :
    DRuns (B * 2 ^ n) d ψ (onState (B * 2 ^ n) (applyMat (sortQ ts) m.toDense.entry (ctrlList cs vs)) ψ) := by
  unfold sparseUpdate at hup
  cases hck : checkWithinBounds o n with
  | error e => rw [hck] at hup; cases hup
  | ok u =>
    cases u
    rw [hck] at hup
    change sparseKernel _ _ _ _ _ _ = _ at hup
    have ctx := ctx_of hmk hck hsize
    have hlen := length_sortQ ts
    have hrowsM : (List.range (Csr.ofSMat m).rows).mapM (Csr.ofSMat m).row =
        .ok (m.stored.map fun row => row.map fun p => (p.2, p.1)) := by
      have : (Csr.ofSMat m).rows = (m.stored.map fun row => row.map fun p => (p.2, p.1)).length := by
        simp [Csr.ofSMat]
      rw [this, List.range_eq_range']
      apply mapM_range'
      intro i hi
      rw [Nat.zero_add, csr_row m (by simpa using hi), List.getElem_map]
    unfold sparseKernel at hup
    rw [hrowsM] at hup
    injection hup with hup
    subst hup
    apply rows_spec ctx.masks ctx.hn ctx.maskOf (fun q hq => ctx.tlt q (mem_sortQ.1 hq)) _ ctx.ctrl
    · rw [List.length_map, hm.rows, hlen]
    · intro r p hp
      simp only [List.getElem_map, List.mem_map] at hp
      obtain ⟨q, hq, rfl⟩ := hp
      rw [hlen]
      exact (hm.inner _ (List.getElem_mem _)).1 q hq
    · intro r f
      have hr : r.val < m.stored.length := by simpa using r.isLt
      simp only [List.getElem_map]
      rw [hlen, sum_find _ (2 ^ ts.length) (hm.inner _ (List.getElem_mem _)).1 (hm.inner _ (List.getElem_mem _)).2]
      apply Finset.sum_congr rfl
      intro x _
      simp only [SMat.toDense, List.getElem?_eq_getElem hr]
      rfl

theorem sparseView_row {R : Type} [Zero R] (M : DMat R) {i : Nat} (hi : i < M.rows) :
    ∃ h : i < M.sparseView.stored.length, M.sparseView.stored[i] = (List.range M.cols).filterMap fun j =>
      (open Classical in if M.entry i j = 0 then none else some (j, M.entry i j)) := by
  refine ⟨by simpa [DMat.sparseView] using hi, ?_⟩
  unfold DMat.sparseView
  simp only
  rw [List.getElem_map, List.getElem_range]

theorem sparseView_ok {R : Type} [Zero R] (M : DMat R) {d : Nat} (hr : M.rows = d) (hc : M.cols = d) :
    SMat.OK M.sparseView d := by
  classical
  refine ⟨by simp [DMat.sparseView, hr], hc, ?_⟩
  intro row hrow
  simp only [DMat.sparseView, List.mem_map] at hrow
  obtain ⟨i, -, rfl⟩ := hrow
  constructor
  · intro p hp
    rw [List.mem_filterMap] at hp
    obtain ⟨j, hj, hp⟩ := hp
    split at hp
    · cases hp
    · injection hp with hp
      subst hp
      rw [← hc]; simpa using hj
  · rw [List.map_filterMap]
    have : (List.range M.cols).filterMap (fun j => Option.map Prod.fst
        (if M.entry i j = 0 then none else some (j, M.entry i j))) =
        (List.range M.cols).filter (fun j => decide (M.entry i j ≠ 0)) := by
      rw [← List.filterMap_eq_filter]
      apply List.filterMap_congr
      intro j _
      by_cases h : M.entry i j = 0 <;> simp [h, Option.guard]
    rw [this]
    exact List.nodup_range.filter _

theorem find_filterMap {R : Type} [Zero R] (f : Nat → R) (l : List Nat) {j : Nat} (hj : j ∈ l) :
    (match (l.filterMap fun j => (open Classical in if f j = 0 then none else some (j, f j))).find?
        (fun p => decide (p.1 = j)) with
      | none => 0
      | some p => p.2) = f j := by
  classical
  cases hf : (l.filterMap fun j => if f j = 0 then none else some (j, f j)).find? (fun p => decide (p.1 = j)) with
  | none =>
    simp only
    rw [List.find?_eq_none] at hf
    by_contra hne
    refine hf (j, f j) ?_ (by simp)
    rw [List.mem_filterMap]
    exact ⟨j, hj, by rw [if_neg fun e => hne e.symm]⟩
  | some p =>
    simp only
    have h1 := List.find?_some hf
    have h2 := List.mem_of_find?_eq_some hf
    rw [List.mem_filterMap] at h2
    obtain ⟨j', -, h2⟩ := h2
    split at h2
    · cases h2
    · injection h2 with h2
      subst h2
      simp only [decide_eq_true_eq] at h1
      subst h1; rfl

theorem sparseView_entry {R : Type} [Zero R] (M : DMat R) {i j : Nat} (hi : i < M.rows) (hj : j < M.cols) :
    M.sparseView.toDense.entry i j = M.entry i j := by
  obtain ⟨h, e⟩ := sparseView_row M hi
  simp only [SMat.toDense, List.getElem?_eq_getElem h, e]
  exact find_filterMap (M.entry i) _ (by simpa using hj)

/-- the sparse gate made by the factory acts as the given matrix on the targets in the given order -/
theorem mkSparse_spec {B n : Nat} {ts cs vs : List Nat} {M : SMat ℂ} (hM : SMat.OK M (2 ^ ts.length))
    {g : SparseGate} (hmk : mkSparse ts M cs vs = .ok g) (hsize : B * 2 ^ n ≤ 2 ^ 64) {d : Device ℂ}
    (hup : sparseUpdate B n g.mat g.o = .ok d) (ψ : U64 → ℂ) :
    DRuns (B * 2 ^ n) d ψ (onState (B * 2 ^ n) (applyMat ts M.toDense.entry (ctrlList cs vs)) ψ) := by
  unfold mkSparse at hmk
  cases hcv : resizeAndCheckControlValues cs vs with
  | error e => rw [hcv] at hmk; cases hmk
  | ok vals =>
    rw [hcv] at hmk
    change (if isSorted ts then _ else _) = _ at hmk
    split at hmk
    · rename_i hsort
      cases ho : mkOperands ts cs vs with
      | error e => rw [ho] at hmk; cases hmk
      | ok o =>
        rw [ho] at hmk
        injection hmk with hmk
        subst hmk
        have := sparseUpdate_spec ho hsize M hM hup ψ
        rwa [isSorted_sortQ hsort] at this
    · cases ht : transformByOrder M.toDense ts with
      | error e => rw [ht] at hmk; cases hmk
      | ok m =>
        rw [ht] at hmk
        change (mkOperands ts cs vs >>= _) = _ at hmk
        cases ho : mkOperands ts cs vs with
        | error e => rw [ho] at hmk; cases hmk
        | ok o =>
          rw [ho] at hmk
          injection hmk with hmk
          subst hmk
          obtain ⟨tn, tl, -⟩ := mkOperands_ok ho
          rw [transformByOrder_ok ⟨tn, tl⟩ M.toDense hM.rows hM.cols] at ht
          injection ht with ht
          subst ht
          have := sparseUpdate_spec ho hsize _ (sparseView_ok _ hM.rows hM.rows) hup ψ
          rw [applyMat_sortQ ⟨tn, tl⟩]
          rw [applyMat_congr (V := fun r s => M.toDense.entry (reorder (sortQ ts) ts r) (reorder (sortQ ts) ts s))]
            at this
          · exact this
          · intro r s hr hs
            rw [length_sortQ] at hr hs
            exact sparseView_entry _ (by rw [← hM.rows] at hr; exact hr) (by rw [← hM.rows] at hs; exact hs)

end Verif.Proofs
