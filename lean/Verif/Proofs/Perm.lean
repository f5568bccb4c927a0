import Verif.Proofs.Gate2

/-! # Helper lemmas: the Permutation gate -/

namespace Verif.Proofs
open Verif Verif.Spec Verif.Model
attribute [-simp] BitVec.getLsbD_eq_getElem

/-- exchange of two numbers -/
def swapN (p i q : Nat) : Nat := if q = p then i else if q = i then p else q

theorem swapN_swapN (p i q : Nat) : swapN p i (swapN p i q) = q := by
  unfold swapN; split_ifs <;> omega

theorem swapN_lt {p i q k : Nat} (hp : p < k) (hi : i < k) : swapN p i q < k ↔ q < k := by
  unfold swapN; split_ifs <;> omega

/-- exchange of two bits -/
def swapBits (j : U64) (a b : Nat) : U64 := setBit (setBit j a (j.getLsbD b)) b (j.getLsbD a)

theorem getLsbD_swapBits (j : U64) {a b : Nat} (ha : a < 64) (hb : b < 64) (q : Nat) :
    (swapBits j a b).getLsbD q = j.getLsbD (swapN a b q) := by
  unfold swapBits swapN
  rw [getLsbD_setBit _ hb, getLsbD_setBit _ ha]
  by_cases h1 : q = b
  · subst h1
    by_cases h2 : q = a
    · simp [h2]
    · simp [h2]
  · by_cases h2 : q = a
    · rw [if_neg h1, if_pos h2, if_pos h2]
    · rw [if_neg h1, if_neg h2, if_neg h2, if_neg h1]

theorem isBit_shl {q : Nat} (h : q < 64) : IsBit (1#64 <<< q) q := ⟨h, getLsbD_one_shl h⟩

theorem popcount_two {a b : Nat} (ha : a < 64) (hb : b < 64) (hne : a ≠ b) :
    popcount ((1#64 <<< a) ||| (1#64 <<< b)) = 2 := by
  have h : MaskOf ((1#64 <<< a) ||| (1#64 <<< b)) (sortQ [a, b]) := by
    refine ⟨sortQ_pairwise (by simpa using hne), ?_, ?_⟩
    · intro q hq
      rw [mem_sortQ] at hq
      simp at hq; omega
    · intro i
      rw [BitVec.getLsbD_or, getLsbD_one_shl ha, getLsbD_one_shl hb, ← Bool.decide_or]
      exact decide_eq_decide.2 (by rw [mem_sortQ]; simp)
  rw [popcount_maskOf h, length_sortQ]; rfl

theorem permSwap_spec {R : Type} {B n a b : Nat} (hsize : B * 2 ^ n ≤ 2 ^ 64) (hn : n ≤ 64) (ha : a < n) (hb : b < n) (hne : a ≠ b)
    (ψ : U64 → R) : DRuns (B * 2 ^ n) (.par _ (permSwap a b (B * 2 ^ n))) ψ
      (fun j => if j.toNat < B * 2 ^ n then ψ (swapBits j a b) else ψ j) := by
  have ha' : a < 64 := by omega
  have hb' : b < 64 := by omega
  have z : ∀ x : U64, x ||| 0 = x := fun x => BitVec.or_zero
  have hN : (B * 2 ^ n) >>> 2 = workItems (B * 2 ^ n) (((1#64 <<< a) ||| (1#64 <<< b)) ||| 0) := by
    rw [z]
    unfold workItems
    rw [popcount_two ha' hb' hne]
  have hm : MasksOK B n ((1#64 <<< a) ||| (1#64 <<< b)) 0 0 := by
    refine ⟨hsize, ?_, ?_, ?_⟩
    · rw [toNat_lt_two_pow_iff]
      intro i hi
      rw [z, BitVec.getLsbD_or, getLsbD_one_shl ha', getLsbD_one_shl hb']
      have h1 : i ≠ a := by omega
      have h2 : i ≠ b := by omega
      simp [h1, h2]
    · intro i; simp
    · intro i h; simp at h
  have key := twoTarget_runs rfl hm (isBit_shl ha') (isBit_shl hb') hne
    (fun basis => swapCells (basis ||| (1#64 <<< a)) (basis ||| (1#64 <<< b)))
    (fun x0 x1 a b c d => match x0, x1 with
      | false, false => a
      | true, false => c
      | false, true => b
      | true, true => d) ψ (fun j => if j.toNat < B * 2 ^ n then ψ (swapBits j a b) else ψ j) ?_ ?_ ?_ ?_ ?_ ?_
  · have e2 : (Device.par _ (permSwap a b (B * 2 ^ n)) : Device R) =
        Device.par _ (parallelFor (workItems (B * 2 ^ n) (((1#64 <<< a) ||| (1#64 <<< b)) ||| 0))
          (fun it => swapCells (insertZero it (((1#64 <<< a) ||| (1#64 <<< b)) ||| 0) ||| 0 ||| (1#64 <<< a))
            (insertZero it (((1#64 <<< a) ||| (1#64 <<< b)) ||| 0) ||| 0 ||| (1#64 <<< b)))) := by
      rw [← hN]
      simp only [z]
      rfl
    rw [e2]
    exact key
  · intro b hd; simp [swapCells, Prog.store_def, Prog.Within]
  · intro b hd
    simp [swapCells, Prog.store_def, Prog.exec, update_ne _ hd.d01, update_ne _ hd.d02]
  · intro b hd
    simp [swapCells, Prog.store_def, Prog.exec, update_ne _ hd.d12]
  · intro b hd
    simp [swapCells, Prog.store_def, Prog.exec]
  · intro b hd
    simp [swapCells, Prog.store_def, Prog.exec, update_ne _ hd.d13.symm, update_ne _ hd.d23.symm]
  · intro j
    have hc0 : j &&& (0 : U64) = 0 := by simp
    by_cases hj : j.toNat < B * 2 ^ n
    · rw [if_pos hj, if_pos (show InState (B * 2 ^ n) j ∧ j &&& 0 = 0 from ⟨hj, hc0⟩)]
      simp only [or_bit_eq (isBit_shl ha'), or_bit_eq (isBit_shl hb'), and_not_bit_eq (isBit_shl ha'),
        and_not_bit_eq (isBit_shl hb'), swapBits]
      cases j.getLsbD a <;> cases j.getLsbD b <;> rfl
    · rw [if_neg hj, if_neg (fun hh => hj hh.1)]

/-! ## what a schedule does -/

/-- where a wire ends after the scheduled exchanges -/
def wires (sched : List (Nat × Nat)) (q : Nat) : Nat := sched.foldl (fun q x => swapN x.1 x.2 q) q

/-- the index read by the scheduled exchanges -/
def readIndex : List (Nat × Nat) → U64 → U64
  | [], j => j
  | x :: rest, j => swapBits (readIndex rest j) x.1 x.2

/-- all exchanges of the schedule are between different wires below `k` -/
def SchedOK (k : Nat) (sched : List (Nat × Nat)) : Prop := ∀ x ∈ sched, x.1 < k ∧ x.2 < k ∧ x.1 ≠ x.2

theorem getLsbD_readIndex {k : Nat} (hk : k ≤ 64) {sched : List (Nat × Nat)} (h : SchedOK k sched) (j : U64) (q : Nat) :
    (readIndex sched j).getLsbD q = j.getLsbD (wires sched q) := by
  induction sched generalizing q with
  | nil => rfl
  | cons x rest ih =>
    obtain ⟨h1, h2, -⟩ := h x (by simp)
    rw [readIndex, getLsbD_swapBits _ (by omega) (by omega), ih (fun y hy => h y (by simp [hy]))]
    rfl

theorem wires_lt {k : Nat} {sched : List (Nat × Nat)} (h : SchedOK k sched) (q : Nat) : wires sched q < k ↔ q < k := by
  induction sched generalizing q with
  | nil => rfl
  | cons x rest ih =>
    obtain ⟨h1, h2, -⟩ := h x (by simp)
    have := ih (fun y hy => h y (by simp [hy])) (swapN x.1 x.2 q)
    rw [swapN_lt h1 h2] at this
    exact this

theorem wires_surj (sched : List (Nat × Nat)) (p : Nat) : ∃ q, wires sched q = p := by
  induction sched with
  | nil => exact ⟨p, rfl⟩
  | cons x rest ih =>
    obtain ⟨q, hq⟩ := ih
    refine ⟨swapN x.1 x.2 q, ?_⟩
    show wires rest (swapN x.1 x.2 (swapN x.1 x.2 q)) = p
    rw [swapN_swapN, hq]

theorem wires_inj {sched : List (Nat × Nat)} {a b : Nat} (h : wires sched a = wires sched b) : a = b := by
  induction sched generalizing a b with
  | nil => exact h
  | cons x rest ih =>
    have := ih (a := swapN x.1 x.2 a) (b := swapN x.1 x.2 b) h
    rw [← swapN_swapN x.1 x.2 a, this, swapN_swapN]

theorem wires_append (sched : List (Nat × Nat)) (x : Nat × Nat) (q : Nat) :
    wires (sched ++ [x]) q = swapN x.1 x.2 (wires sched q) := by
  unfold wires; rw [List.foldl_append]; rfl

theorem permKernel_spec {R : Type} {B n k : Nat} (hsize : B * 2 ^ n ≤ 2 ^ 64) (hn : n ≤ 64) (hk : k ≤ n)
    {sched : List (Nat × Nat)} (h : SchedOK k sched) (ψ : U64 → R) :
    DRuns (B * 2 ^ n) (permKernel (B * 2 ^ n) sched) ψ
      (fun j => if j.toNat < B * 2 ^ n then ψ (readIndex sched j) else ψ j) := by
  induction sched generalizing ψ with
  | nil => simp [permKernel, DRuns, readIndex]
  | cons x rest ih =>
    obtain ⟨h1, h2, h3⟩ := h x (by simp)
    have hr : SchedOK k rest := fun y hy => h y (by simp [hy])
    refine ⟨_, permSwap_spec hsize hn (a := x.1) (b := x.2) (by omega) (by omega) h3 ψ, ?_⟩
    have := ih hr (fun j => if j.toNat < B * 2 ^ n then ψ (swapBits j x.1 x.2) else ψ j)
    have e : (fun j => if BitVec.toNat j < B * 2 ^ n then ψ (readIndex (x :: rest) j) else ψ j) =
        (fun j => if BitVec.toNat j < B * 2 ^ n then
          (fun j => if BitVec.toNat j < B * 2 ^ n then ψ (swapBits j x.1 x.2) else ψ j) (readIndex rest j)
          else (fun j => if BitVec.toNat j < B * 2 ^ n then ψ (swapBits j x.1 x.2) else ψ j) j) := by
      funext j
      by_cases hj : j.toNat < B * 2 ^ n
      · have hin : (readIndex rest j).toNat < B * 2 ^ n := by
          refine (inState_congr (B := B) (n := n) (j' := j) ?_).2 hj
          intro i hi
          rw [getLsbD_readIndex (by omega) hr]
          have h1 := (wires_lt hr i)
          -- wires at or above k stay
          have : ∀ (s : List (Nat × Nat)), SchedOK k s → wires s i = i := by
            intro s hs
            induction s with
            | nil => rfl
            | cons y s ihs =>
              obtain ⟨e1, e2, -⟩ := hs y (by simp)
              show wires s (swapN y.1 y.2 i) = i
              have : swapN y.1 y.2 i = i := by unfold swapN; split_ifs <;> omega
              rw [this, ihs fun z hz => hs z (by simp [hz])]
          rw [this rest hr]
        simp only [hj, if_true, hin]
        rfl
      · simp only [hj, if_false]
    rw [e]
    exact this

/-! ## the schedule computed by the constructor -/

/-- `dst` is a permutation of `0..k-1` -/
structure IsPerm (dst : List Nat) : Prop where
  nodup : dst.Nodup
  lt : ∀ x ∈ dst, x < dst.length

/-- outer invariant -/
structure Outer (dst : List Nat) (seen : List Bool) (sched : List (Nat × Nat)) : Prop where
  len : seen.length = dst.length
  ok : SchedOK dst.length sched
  done : ∀ q (h : q < dst.length), seen[q]? = some true → wires sched q = dst[q]
  todo : ∀ q, q < dst.length → seen[q]? = some false → wires sched q = q

/-- invariant inside a cycle -/
structure Inner (dst : List Nat) (seen : List Bool) (i pos : Nat) (sched : List (Nat × Nat)) : Prop where
  len : seen.length = dst.length
  ok : SchedOK dst.length sched
  hi : seen[i]? = some true
  hpos : seen[pos]? = some true
  done : ∀ q (h : q < dst.length), seen[q]? = some true → q ≠ pos → wires sched q = dst[q]
  cur : wires sched pos = i
  todo : ∀ q, q < dst.length → seen[q]? = some false → wires sched q = q

theorem cycleLoop_ok {dst : List Nat} (hd : IsPerm dst) {seen : List Bool} {i pos : Nat}
    {sched : List (Nat × Nat)} (h : Inner dst seen i pos sched) :
    ∃ (seen' : List Bool) (sched' : List (Nat × Nat)), cycleLoop dst seen i pos sched = .ok (seen', sched') ∧ Outer dst seen' sched' ∧
      ∀ q : Nat, seen[q]? = some true → seen'[q]? = some true := by
  induction seen, pos, sched using cycleLoop.induct dst i with
  | case1 seen pos sched he =>
    rw [List.getElem?_eq_none_iff] at he
    have := (List.getElem?_eq_some_iff.1 h.hpos).1
    rw [h.len] at this
    omega
  | case2 seen pos sched p hp hs =>
    rw [List.getElem?_eq_none_iff] at hs
    have := hd.lt p (List.mem_of_getElem? hp)
    rw [h.len] at hs
    omega
  | case3 seen pos sched p hp hs =>
    refine ⟨seen, sched, ?_, ?_, fun _ h => h⟩
    · rw [cycleLoop.eq_def]; simp only [hp]; split <;> simp_all
    obtain ⟨hpos, hdp⟩ := List.getElem?_eq_some_iff.1 hp
    have hpi : p = i := by
      obtain ⟨q, hq⟩ := wires_surj sched p
      have hplt : p < dst.length := hd.lt p (List.mem_of_getElem? hp)
      have hqlt : q < dst.length := (wires_lt h.ok q).1 (by rw [hq]; exact hplt)
      have hqs : q < seen.length := by rw [h.len]; exact hqlt
      have hsq : seen[q]? = some seen[q] := List.getElem?_eq_getElem hqs
      cases hv : seen[q] with
      | false =>
        rw [hv] at hsq
        have := h.todo q hqlt hsq
        rw [hq] at this
        subst this
        rw [hs] at hsq; cases hsq
      | true =>
        rw [hv] at hsq
        by_cases hqp : q = pos
        · subst hqp; rw [← hq, h.cur]
        · have := h.done q hqlt hsq hqp
          rw [hq, ← hdp] at this
          exact absurd ((List.Nodup.getElem_inj_iff hd.nodup).1 this.symm) hqp
    refine ⟨h.len, h.ok, ?_, h.todo⟩
    intro q hq hsq
    by_cases hqp : q = pos
    · subst hqp; rw [h.cur, hdp, hpi]
    · exact h.done q hq hsq hqp
  | case4 seen pos sched p hp hs ih =>
    obtain ⟨hpos, hdp⟩ := List.getElem?_eq_some_iff.1 hp
    obtain ⟨hplt', -⟩ := List.getElem?_eq_some_iff.1 hs
    have hplt : p < dst.length := by rw [← h.len]; exact hplt'
    have hpi : p ≠ i := by rintro rfl; rw [h.hi] at hs; cases hs
    have hpp : p ≠ pos := by rintro rfl; rw [h.hpos] at hs; cases hs
    have hilt : i < dst.length := by rw [← h.len]; exact (List.getElem?_eq_some_iff.1 h.hi).1
    have hget : ∀ q, (seen.set p true)[q]? = if p = q then some true else seen[q]? := by
      intro q; rw [List.getElem?_set]
      simp only [hplt', if_true]
    have hinner : Inner dst (seen.set p true) i p (sched ++ [(p, i)]) := by
      refine ⟨by simp [h.len], ?_, ?_, ?_, ?_, ?_, ?_⟩
      · intro x hx
        rw [List.mem_append] at hx
        rcases hx with hx | hx
        · exact h.ok x hx
        · simp at hx; subst hx; exact ⟨hplt, hilt, hpi⟩
      · rw [hget, if_neg hpi]; exact h.hi
      · rw [hget, if_pos rfl]
      · intro q hq hsq hqp
        rw [hget, if_neg (Ne.symm hqp)] at hsq
        rw [wires_append]
        by_cases hqpos : q = pos
        · subst hqpos
          rw [h.cur, hdp]
          unfold swapN; split_ifs <;> omega
        · have hne : wires sched q ≠ i := fun e => hqpos (wires_inj (e.trans h.cur.symm))
          rw [h.done q hq hsq hqpos] at hne ⊢
          have : dst[q] ≠ p := by
            rw [← hdp]
            exact fun e => hqpos ((List.Nodup.getElem_inj_iff hd.nodup).1 e)
          unfold swapN; split_ifs <;> omega
      · rw [wires_append, h.todo p hplt hs]
        unfold swapN; simp
      · intro q hq hsq
        have hqp : q ≠ p := by
          rintro rfl; rw [hget, if_pos rfl] at hsq; cases hsq
        rw [hget, if_neg (Ne.symm hqp)] at hsq
        rw [wires_append, h.todo q hq hsq]
        have : q ≠ i := by rintro rfl; rw [h.hi] at hsq; cases hsq
        unfold swapN; simp [hqp, this]
    obtain ⟨seen', sched', h1, h2, h3⟩ := ih hinner
    refine ⟨seen', sched', ?_, h2, ?_⟩
    · rw [cycleLoop.eq_def]; simp only [hp]
      split <;> simp_all
    · intro q hq
      apply h3
      rw [hget]
      split
      · rfl
      · exact hq

theorem scheduleLoop_ok {dst : List Nat} (hd : IsPerm dst) (is : List Nat) (his : ∀ i ∈ is, i < dst.length)
    {seen : List Bool} {sched : List (Nat × Nat)} (h : Outer dst seen sched)
    (hrest : ∀ q, q < dst.length → q ∉ is → seen[q]? = some true) :
    ∃ sched', scheduleLoop dst is seen sched = .ok sched' ∧ SchedOK dst.length sched' ∧
      ∀ q (hq : q < dst.length), wires sched' q = dst[q] := by
  induction is generalizing seen sched with
  | nil => exact ⟨sched, rfl, h.ok, fun q hq => h.done q hq (hrest q hq (by simp))⟩
  | cons i is ih =>
    have hi : i < seen.length := by rw [h.len]; exact his i (by simp)
    have hel : elemAt seen i = .ok seen[i] := by
      unfold elemAt; rw [List.getElem?_eq_getElem hi]
    have hsi : seen[i]? = some seen[i] := List.getElem?_eq_getElem hi
    cases hv : seen[i] with
    | true =>
      rw [hv] at hel hsi
      obtain ⟨s', h1, h2, h3⟩ := ih (fun x hx => his x (by simp [hx])) h (by
        intro q hq hm
        by_cases hqi : q = i
        · subst hqi; exact hsi
        · exact hrest q hq (by simp [hqi, hm]))
      refine ⟨s', ?_, h2, h3⟩
      unfold scheduleLoop
      rw [hel]
      exact h1
    | false =>
      rw [hv] at hel hsi
      have hget : ∀ q, (seen.set i true)[q]? = if i = q then some true else seen[q]? := by
        intro q; rw [List.getElem?_set]
        simp only [hi, if_true]
      have hinner : Inner dst (seen.set i true) i i sched := by
        refine ⟨by simp [h.len], h.ok, by rw [hget, if_pos rfl], by rw [hget, if_pos rfl], ?_,
          h.todo i (his i (by simp)) hsi, ?_⟩
        · intro q hq hsq hqi
          rw [hget, if_neg (Ne.symm hqi)] at hsq
          exact h.done q hq hsq
        · intro q hq hsq
          by_cases hqi : i = q
          · rw [hget, if_pos hqi] at hsq; cases hsq
          · rw [hget, if_neg hqi] at hsq
            exact h.todo q hq hsq
      obtain ⟨seen', sched', h1, h2, h3⟩ := cycleLoop_ok hd hinner
      obtain ⟨s', h4, h5, h6⟩ := ih (fun x hx => his x (by simp [hx])) h2 (by
        intro q hq hm
        apply h3
        rw [hget]
        by_cases hqi : i = q
        · rw [if_pos hqi]
        · rw [if_neg hqi]
          exact hrest q hq (by simp [Ne.symm hqi, hm]))
      refine ⟨s', ?_, h5, h6⟩
      unfold scheduleLoop
      simp only [hel, ok_bind, h1, Bool.false_eq_true, if_false]
      exact h4

theorem full_mask_bits {k : Nat} (hk : k < 64) (i : Nat) : ((1#64 <<< k) - 1#64).getLsbD i = decide (i < k) := by
  have := getLsbD_outer (t := 0) hk i
  have e : ∀ x : U64, ~~~(0 : U64) &&& x = x := by
    intro x
    apply U64.ext; intro i hi
    rw [BitVec.getLsbD_and, BitVec.getLsbD_not]
    simp [hi]
  rw [e] at this
  have z : (0 : U64).getLsbD i = false := by simp
  rw [z, Bool.not_false, Bool.and_true] at this
  exact this

theorem isPerm_iff {dst : List Nat} {mask : U64} (hk : dst.length < 64) (hm : vectorToMask dst = .ok mask) :
    mask = (1#64 <<< dst.length) - 1#64 ↔ IsPerm dst := by
  obtain ⟨hnd, hlt⟩ := (vectorToMask_ok_iff dst).1 ⟨mask, hm⟩
  have hb := getLsbD_vectorToMask hm
  constructor
  · intro h
    refine ⟨hnd, ?_⟩
    intro x hx
    have h1 := hb x
    rw [h, full_mask_bits hk] at h1
    simpa [hx] using h1
  · intro h
    apply U64.ext
    intro i _
    rw [hb, full_mask_bits hk]
    apply decide_eq_decide.2
    refine ⟨fun hi => h.lt i hi, ?_⟩
    intro hi
    -- a duplicate-free list of k numbers below k contains all of them
    have hsub : dst.toFinset ⊆ Finset.range dst.length := by
      intro x hx
      rw [List.mem_toFinset] at hx
      exact Finset.mem_range.2 (h.lt x hx)
    have hcard : dst.toFinset.card = (Finset.range dst.length).card := by
      rw [List.toFinset_card_of_nodup hnd, Finset.card_range]
    have := Finset.eq_of_subset_of_card_le hsub (by rw [hcard])
    have hi' : i ∈ Finset.range dst.length := Finset.mem_range.2 hi
    rw [← this, List.mem_toFinset] at hi'
    exact hi'

theorem schedule_ok {dst : List Nat} (hd : IsPerm dst) :
    ∃ sched, scheduleLoop dst (List.range dst.length) (List.replicate dst.length false) [] = .ok sched ∧
      SchedOK dst.length sched ∧ ∀ q (hq : q < dst.length), wires sched q = dst[q] := by
  refine scheduleLoop_ok hd _ (fun i hi => by simpa using hi) ⟨by simp, by simp [SchedOK], ?_, fun q _ _ => rfl⟩ ?_
  · intro q hq hs
    rw [List.getElem?_replicate, if_pos hq] at hs
    cases hs
  · intro q hq hm
    simp at hm; omega

theorem permCtor_spec {dst : List Nat} {g : PermGate} (hk : dst.length < 64) (h : permCtor dst = .ok g) :
    IsPerm dst ∧ g.dst = dst ∧ SchedOK dst.length g.schedule ∧
      (∀ q (hq : q < dst.length), wires g.schedule q = dst[q]) ∧ mkOperands dst [] [] = .ok g.o := by
  obtain ⟨mask, hm, h⟩ := bind_ok h
  obtain ⟨o, ho, h⟩ := bind_ok h
  have hs : shl1 dst.length = .ok (1#64 <<< dst.length) := by unfold shl1; rw [if_pos hk]
  rw [hs] at h
  obtain ⟨one, h1, h⟩ := bind_ok h
  obtain rfl := Except.ok.inj h1
  by_cases hp : mask = (1#64 <<< dst.length) - 1#64
  · rw [if_neg (by simpa using hp)] at h
    have hd := (isPerm_iff hk hm).1 hp
    obtain ⟨sched, hsch, h2, h3⟩ := schedule_ok hd
    rw [hsch] at h
    obtain rfl : _ = g := Except.ok.inj h
    refine ⟨hd, rfl, h2, h3, ?_⟩
    unfold mkOperands
    have hv : resizeAndCheckControlValues [] [] = .ok [] := by simp [resizeAndCheckControlValues]
    rw [hv, hm]
    exact ho
  · exfalso
    have hp' : mask ≠ (1#64 <<< dst.length) - 1 := hp
    simp only [hp', ne_eq, not_false_eq_true, if_true] at h
    cases h

theorem permCtor_complete {dst : List Nat} (hk : dst.length < 64) (hd : IsPerm dst) : ∃ g, permCtor dst = .ok g := by
  obtain ⟨mask, hm⟩ := (vectorToMask_ok_iff dst).2 ⟨hd.nodup, fun x hx => by have := hd.lt x hx; omega⟩
  obtain ⟨sched, hsch, -, -⟩ := schedule_ok hd
  have hs : shl1 dst.length = .ok (1#64 <<< dst.length) := by unfold shl1; rw [if_pos hk]
  refine ⟨⟨dst, sched, ⟨mask, 0, 0⟩⟩, ?_⟩
  have hg : gateBase mask 0 0 = .ok ⟨mask, 0, 0⟩ := by simp [gateBase]
  unfold permCtor
  simp only [hm, hs, hsch, hg, ok_bind]
  rw [if_neg]
  · rfl
  · exact fun h => h ((isPerm_iff hk hm).2 hd)

theorem mkPerm_ok {dst : List Nat} {g : PermGate} (h : mkPerm dst = .ok g) :
    dst.length < 64 ∧ permCtor dst = .ok g := by
  unfold mkPerm at h
  by_cases hk : dst.length ≥ 64
  · simp only [hk, if_true] at h; cases h
  · refine ⟨by omega, ?_⟩
    simp only [hk, if_false] at h
    obtain ⟨e, he, h⟩ := bind_ok h
    obtain ⟨mask, hm, h⟩ := bind_ok h
    split at h
    · cases h
    · exact h

theorem mkPerm_complete {dst : List Nat} (hk : dst.length < 64) (hd : IsPerm dst) : ∃ g, mkPerm dst = .ok g := by
  obtain ⟨g, hg⟩ := permCtor_complete hk hd
  obtain ⟨mask, hm⟩ := (vectorToMask_ok_iff dst).2 ⟨hd.nodup, fun x hx => by have := hd.lt x hx; omega⟩
  have hs : shl1 dst.length = .ok (1#64 <<< dst.length) := by unfold shl1; rw [if_pos hk]
  have hmask := (isPerm_iff hk hm).2 hd
  have he : permExpectedMask dst.length = .ok mask := by
    unfold permExpectedMask
    by_cases h0 : dst.length = 0
    · rw [if_pos h0, hmask, h0]; rfl
    · rw [if_neg h0, hs, hmask]; rfl
  refine ⟨g, ?_⟩
  unfold mkPerm
  simp only [show ¬ dst.length ≥ 64 by omega, if_false, he, ok_bind, hm, ne_eq, not_true_eq_false]
  exact hg

/-! ## operator, matrix, inverse -/

/-- textbook matrix of the permutation: basis state `s` goes to the basis state whose bit `dst[q]` is bit `q` of `s` -/
theorem perm_readIndex {dst : List Nat} {g : PermGate} (hk : dst.length < 64) (h : permCtor dst = .ok g) (j : U64) :
    readIndex g.schedule j = putBits j (List.range dst.length) (getBits j dst) := by
  obtain ⟨hd, -, hs, hw, -⟩ := permCtor_spec hk h
  apply U64.ext
  intro i _
  rw [getLsbD_readIndex (by omega) hs]
  by_cases hi : i < dst.length
  · have := getLsbD_putBits_get j (ts := List.range dst.length) List.nodup_range
      (by intro q hq; rw [List.mem_range] at hq; omega) (getBits j dst) (k := i) (by simpa using hi)
    rw [List.getElem_range] at this
    rw [this, testBit_getBits, List.getElem?_eq_getElem hi, hw i hi]
  · rw [getLsbD_putBits_notMem j (by intro q hq; rw [List.mem_range] at hq; omega) _ (by simpa using hi)]
    have : ∀ (s : List (Nat × Nat)), SchedOK dst.length s → wires s i = i := by
      intro s hs
      induction s with
      | nil => rfl
      | cons y s ihs =>
        obtain ⟨e1, e2, -⟩ := hs y (by simp)
        show wires s (swapN y.1 y.2 i) = i
        have : swapN y.1 y.2 i = i := by unfold swapN; split_ifs <;> omega
        rw [this, ihs fun z hz => hs z (by simp [hz])]
    rw [this _ hs]

theorem perm_update {B n : Nat} {dst : List Nat} {g : PermGate} (hk : dst.length < 64) (h : permCtor dst = .ok g)
    (hsize : B * 2 ^ n ≤ 2 ^ 64) {d : Device ℂ} (hd : permUpdate B n g = .ok d) (ψ : U64 → ℂ) :
    dst.length ≤ n ∧ DRuns (B * 2 ^ n) d ψ
      (onState (B * 2 ^ n) (fun ψ j => ψ (putBits j (List.range dst.length) (getBits j dst))) ψ) := by
  obtain ⟨hp, -, hs, hw, hmk⟩ := permCtor_spec hk h
  obtain ⟨⟨⟩, hck, hd⟩ := bind_ok hd
  obtain rfl : _ = d := Except.ok.inj hd
  have ctx := ctx_of hmk hck hsize
  have hkn : dst.length ≤ n := by
    by_contra hn
    have hn : n < dst.length := by omega
    have hmem : n ∈ dst := by
      obtain ⟨mask, hm⟩ := (vectorToMask_ok_iff dst).2 ⟨hp.nodup, fun x hx => by have := hp.lt x hx; omega⟩
      have := (isPerm_iff hk hm).2 hp
      have hb := getLsbD_vectorToMask hm n
      rw [this, full_mask_bits hk] at hb
      simpa [hn] using hb
    have := ctx.tlt n hmem
    omega
  refine ⟨hkn, ?_⟩
  have := permKernel_spec hsize (by have := ctx.hn; omega) hkn hs ψ
  simp only [perm_readIndex hk h] at this
  exact this

theorem targetsOK_range {k : Nat} (hk : k ≤ 64) : TargetsOK (List.range k) :=
  ⟨List.nodup_range, fun q hq => by rw [List.mem_range] at hq; omega⟩

theorem testBit_getBits_range (j : U64) {k q : Nat} (hq : q < k) :
    (getBits j (List.range k)).testBit q = j.getLsbD q := by
  rw [testBit_getBits, List.getElem?_range hq]

/-- the permutation operator in matrix form -/
theorem applyMat_permMat {dst : List Nat} (hk : dst.length ≤ 64) (hd : IsPerm dst) (ψ : U64 → ℂ) (j : U64) :
    applyMat (List.range dst.length) (permMat dst) [] ψ j =
      ψ (putBits j (List.range dst.length) (getBits j dst)) := by
  unfold applyMat
  rw [if_pos (show CtrlOK [] j by simp [CtrlOK])]
  rw [Finset.sum_eq_single (getBits j dst)]
  · have : permMat dst (getBits j (List.range dst.length)) (getBits j dst) = 1 := by
      unfold permMat
      rw [if_pos]
      intro q hq
      rw [testBit_getBits_range j (hd.lt _ (List.getElem_mem hq)), testBit_getBits,
        List.getElem?_eq_getElem hq]
    rw [this, one_mul]
  · intro x hx hne
    have : permMat dst (getBits j (List.range dst.length)) x = 0 := by
      unfold permMat
      rw [if_neg]
      intro hall
      apply hne
      apply Nat.eq_of_testBit_eq
      intro q
      rw [testBit_getBits]
      by_cases hq : q < dst.length
      · have := hall q hq
        rw [testBit_getBits_range j (hd.lt _ (List.getElem_mem hq))] at this
        rw [List.getElem?_eq_getElem hq, ← this]
      · rw [List.getElem?_eq_none (by omega)]
        simp only
        rw [Finset.mem_range, List.length_range] at hx
        exact Nat.testBit_lt_two_pow (lt_of_lt_of_le hx (Nat.pow_le_pow_right (by omega) (by omega)))
    rw [this, zero_mul]
  · intro hn
    exfalso; apply hn
    rw [Finset.mem_range, List.length_range]
    exact getBits_lt j dst

theorem testBit_shl_bit (x d i : Nat) (q : Nat) :
    (((x >>> q) &&& 1) <<< d).testBit i = (decide (i = d) && x.testBit q) := by
  rw [Nat.testBit_shiftLeft]
  have h : ((x >>> q) &&& 1).testBit (i - d) = (decide (i - d = 0) && x.testBit q) := by
    rw [Nat.testBit_and, Nat.testBit_shiftRight]
    by_cases h0 : i - d = 0
    · simp [h0]
    · have h1 : Nat.testBit 1 (i - d) = false := by
        rw [Bool.eq_false_iff]
        exact fun h => h0 (Nat.testBit_one_eq_true_iff_self_eq_zero.1 h)
      simp [h0, h1]
  rw [h]
  by_cases h1 : i = d
  · simp [h1]
  · by_cases h2 : i ≥ d
    · have : i - d ≠ 0 := by omega
      simp [h1, this]
    · simp [h1, h2]

theorem testBit_permIndex (x : Nat) (ds : List Nat) (q0 acc i : Nat) :
    (permIndex x ds q0 acc).testBit i = true ↔
      acc.testBit i = true ∨ ∃ m, ∃ h : m < ds.length, ds[m] = i ∧ x.testBit (q0 + m) = true := by
  induction ds generalizing q0 acc with
  | nil => simp [permIndex]
  | cons d ds ih =>
    rw [permIndex, ih, Nat.testBit_or, testBit_shl_bit]
    constructor
    · rintro (h | ⟨m, hm, h1, h2⟩)
      · rw [Bool.or_eq_true] at h
        rcases h with h | h
        · exact .inl h
        · rw [Bool.and_eq_true, decide_eq_true_eq] at h
          exact .inr ⟨0, by simp, h.1.symm, h.2⟩
      · exact .inr ⟨m + 1, by simpa using hm, by simpa using h1, by rw [← h2]; congr 1; omega⟩
    · rintro (h | ⟨m, hm, h1, h2⟩)
      · exact .inl (by simp [h])
      · cases m with
        | zero => left; simp at h1; simp at h2; simp [h1, h2]
        | succ m => exact .inr ⟨m, by simpa using hm, by simpa using h1, by rw [← h2]; congr 1; omega⟩

theorem isPerm_mem {dst : List Nat} (hd : IsPerm dst) {i : Nat} (hi : i < dst.length) :
    ∃ m, ∃ h : m < dst.length, dst[m] = i := by
  have hsub : dst.toFinset ⊆ Finset.range dst.length := by
    intro x hx
    rw [List.mem_toFinset] at hx
    exact Finset.mem_range.2 (hd.lt x hx)
  have hcard : dst.toFinset.card = (Finset.range dst.length).card := by
    rw [List.toFinset_card_of_nodup hd.nodup, Finset.card_range]
  have := Finset.eq_of_subset_of_card_le hsub (by rw [hcard])
  have hi' : i ∈ Finset.range dst.length := Finset.mem_range.2 hi
  rw [← this, List.mem_toFinset] at hi'
  exact List.getElem_of_mem hi'

/-- `get_matrix` is the textbook matrix -/
theorem permGetMatrix_eq {dst : List Nat} (hd : IsPerm dst) {r s : Nat} (hr : r < 2 ^ dst.length)
    : (permGetMatrix dst).entry r s = permMat dst r s := by
  unfold permGetMatrix permMat
  simp only
  congr 1
  apply propext
  have hbit : ∀ m (h : m < dst.length), (permIndex s dst 0 0).testBit dst[m] = s.testBit m := by
    intro m hm
    rw [Bool.eq_iff_iff, testBit_permIndex]
    constructor
    · rintro (h | ⟨m', hm', h1, h2⟩)
      · simp at h
      · have := (List.Nodup.getElem_inj_iff hd.nodup).1 h1
        subst this
        simpa using h2
    · intro h
      exact .inr ⟨m, hm, rfl, by simpa using h⟩
  constructor
  · rintro rfl q hq
    exact hbit q hq
  · intro h
    apply Nat.eq_of_testBit_eq
    intro i
    by_cases hi : i < dst.length
    · obtain ⟨m, hm, rfl⟩ := isPerm_mem hd hi
      have := h m hm
      rw [this, hbit m hm]
    · rw [Nat.testBit_lt_two_pow (lt_of_lt_of_le hr (Nat.pow_le_pow_right (by omega) (by omega)))]
      symm
      rw [Bool.eq_false_iff]
      intro hc
      rw [testBit_permIndex] at hc
      rcases hc with hc | ⟨m, hm, h1, -⟩
      · simp at hc
      · have := hd.lt _ (List.getElem_mem hm)
        omega

theorem invertLoop_ok {k : Nat} (ds : List Nat) (i : Nat) (inv : List Nat) (hl : inv.length = k)
    (hlt : ∀ d ∈ ds, d < k) (hnd : ds.Nodup) :
    ∃ inv', invertLoop ds i inv = .ok inv' ∧ inv'.length = k ∧
      (∀ m (h : m < ds.length), inv'[ds[m]]? = some (i + m)) ∧ ∀ x, x ∉ ds → inv'[x]? = inv[x]? := by
  induction ds generalizing i inv with
  | nil => exact ⟨inv, rfl, hl, by simp, fun _ _ => rfl⟩
  | cons d ds ih =>
    have hd : d < inv.length := by rw [hl]; exact hlt d (by simp)
    obtain ⟨h1, h2⟩ := List.nodup_cons.1 hnd
    obtain ⟨inv', e1, e2, e3, e4⟩ := ih (i + 1) (inv.set d i) (by simp [hl]) (fun x hx => hlt x (by simp [hx])) h2
    refine ⟨inv', ?_, e2, ?_, ?_⟩
    · unfold invertLoop; rw [if_pos hd]; exact e1
    · intro m hm
      cases m with
      | zero =>
        simp only [List.getElem_cons_zero, Nat.add_zero]
        rw [e4 d h1, List.getElem?_set]; simp [hd]
      | succ m =>
        simp only [List.getElem_cons_succ]
        rw [e3 m (by simpa using hm)]
        congr 1; omega
    · intro x hx
      simp only [List.mem_cons, not_or] at hx
      rw [e4 x hx.2, List.getElem?_set, if_neg (Ne.symm hx.1)]

/-- the inverse gate undoes the permutation -/
theorem permInverse_ok {dst : List Nat} {g : PermGate} (hk : dst.length < 64) (h : permCtor dst = .ok g) :
    ∃ inv g', permInverse g = .ok g' ∧ permCtor inv = .ok g' ∧ inv.length = dst.length ∧ IsPerm inv ∧
      ∀ m (hm : m < dst.length), inv[dst[m]]? = some m := by
  obtain ⟨hd, hg, -, -, -⟩ := permCtor_spec hk h
  obtain ⟨inv, e1, e2, e3, -⟩ := invertLoop_ok (k := dst.length) dst 0 (List.replicate dst.length 0) (by simp) hd.lt
    hd.nodup
  have e3' : ∀ m (hm : m < dst.length), inv[dst[m]]? = some m := by
    intro m hm; rw [e3 m hm]; simp
  have hinv : IsPerm inv := by
    constructor
    · rw [List.nodup_iff_injective_getElem]
      intro a b hab
      obtain ⟨m, hm, ha⟩ := isPerm_mem hd (by rw [← e2]; exact a.isLt)
      obtain ⟨m', hm', hb⟩ := isPerm_mem hd (by rw [← e2]; exact b.isLt)
      have f1 := e3' m hm
      have f2 := e3' m' hm'
      rw [ha, List.getElem?_eq_getElem a.isLt] at f1
      rw [hb, List.getElem?_eq_getElem b.isLt] at f2
      simp only at hab
      rw [hab, Option.some.injEq] at f1
      rw [f1, Option.some.injEq] at f2
      subst f2
      exact Fin.ext (ha.symm.trans hb)
    · intro x hx
      obtain ⟨i, hi, rfl⟩ := List.getElem_of_mem hx
      obtain ⟨m, hm, ha⟩ := isPerm_mem hd (by rw [← e2]; exact hi)
      have f1 := e3' m hm
      subst ha
      rw [List.getElem?_eq_getElem hi, Option.some.injEq] at f1
      rw [f1, e2]; exact hm
  obtain ⟨g', hg'⟩ := permCtor_complete (by rw [e2]; exact hk) hinv
  refine ⟨inv, g', ?_, hg', e2, hinv, e3'⟩
  unfold permInverse
  rw [hg, e1]
  exact hg'

/-- permuting and permuting back reads the same index -/
theorem perm_inverse_index {dst inv : List Nat} (hk : dst.length ≤ 64) (hd : IsPerm dst)
    (hl : inv.length = dst.length) (h : ∀ m (hm : m < dst.length), inv[dst[m]]? = some m) (j : U64) :
    putBits (putBits j (List.range dst.length) (getBits j dst)) (List.range dst.length)
      (getBits (putBits j (List.range dst.length) (getBits j dst)) inv) = j ∧
    putBits (putBits j (List.range dst.length) (getBits j inv)) (List.range dst.length)
      (getBits (putBits j (List.range dst.length) (getBits j inv)) dst) = j := by
  have hr := targetsOK_range hk
  have hget : ∀ (j : U64) (x : Nat) (q : Nat), q < dst.length →
      (putBits j (List.range dst.length) x).getLsbD q = x.testBit q := by
    intro j x q hq
    have := getLsbD_putBits_get j hr.nodup hr.lt x (k := q) (by simpa using hq)
    rwa [List.getElem_range] at this
  have hout : ∀ (j : U64) (x : Nat) (q : Nat), ¬ q < dst.length →
      (putBits j (List.range dst.length) x).getLsbD q = j.getLsbD q := by
    intro j x q hq
    exact getLsbD_putBits_notMem j hr.lt x (by simpa using hq)
  have hbit : ∀ (l : List Nat) (j : U64) (q : Nat) (hq : q < l.length), (getBits j l).testBit q = j.getLsbD l[q] := by
    intro l j q hq
    rw [testBit_getBits, List.getElem?_eq_getElem hq]
  constructor
  · apply U64.ext
    intro i _
    by_cases hi : i < dst.length
    · obtain ⟨m, hm, rfl⟩ := isPerm_mem hd hi
      have h1 := h m hm
      have hi' : dst[m] < inv.length := by rw [hl]; exact hi
      rw [List.getElem?_eq_getElem hi', Option.some.injEq] at h1
      rw [hget _ _ _ hi, hbit inv _ _ hi', h1, hget _ _ _ hm, hbit dst _ _ hm]
    · rw [hout _ _ _ hi, hout _ _ _ hi]
  · apply U64.ext
    intro i _
    by_cases hi : i < dst.length
    · have h1 := h i hi
      have h2 : dst[i] < dst.length := hd.lt _ (List.getElem_mem hi)
      have hi' : dst[i] < inv.length := by rw [hl]; exact h2
      rw [List.getElem?_eq_getElem hi', Option.some.injEq] at h1
      rw [hget _ _ _ hi, hbit dst _ _ hi, hget _ _ _ h2, hbit inv _ _ hi', h1]
    · rw [hout _ _ _ hi, hout _ _ _ hi]

end Verif.Proofs
