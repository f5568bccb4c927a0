import Verif.Model.Dense
import Verif.Core.Shared
import Verif.Core.Scatter
import Verif.Proofs.Kernels

/-! # The out-of-place matrix kernels compute the operator of their matrix -/

namespace Verif.Proofs
open Verif Verif.Spec Verif.Model
open Verif.Prog (load store)
attribute [-simp] BitVec.getLsbD_eq_getElem

variable {R : Type}

theorem exec_accumulate {A : Type} [DecidableEq A] [Add R] [Mul R] (l : List (R × A)) (acc : R) (a : A)
    (m : A → R) : (accumulate l acc >>= fun s => store a s).exec m =
      Function.update m a (l.foldl (fun s p => s + p.1 * m p.2) acc) := by
  induction l generalizing acc with
  | nil => rfl
  | cons p l ih =>
    obtain ⟨z, b⟩ := p
    exact ih (acc + z * m b)

theorem foldl_sum [CommSemiring R] {A : Type} (f : A → R) (l : List A) (acc : R) :
    l.foldl (fun s p => s + f p) acc = acc + (l.map f).sum := by
  induction l generalizing acc with
  | nil => simp
  | cons p l ih => rw [List.foldl_cons, ih, List.map_cons, List.sum_cons, add_assoc]

theorem within2_accumulate {A : Type} [Add R] [Mul R] {F S : A → Prop} (l : List (R × A)) (acc : R)
    (h : ∀ p ∈ l, S p.2) : (accumulate l acc).Within2 F S := by
  induction l generalizing acc with
  | nil => trivial
  | cons p l ih =>
    obtain ⟨z, b⟩ := p
    exact ⟨.inr (h (z, b) (by simp)), fun v => ih _ fun q hq => h q (by simp [hq])⟩

theorem init_runs [Zero R] {dim : Nat} (hdim : dim ≤ 2 ^ 64) (c v : U64) (ψ junk : U64 → R) :
    Runs (fun p : Bool × U64 => InState dim p.2) (outOfPlaceInit c v dim) (twoBuffers ψ junk)
      (twoBuffers ψ fun j => if InState dim j then (if j &&& c = v then 0 else ψ j) else junk j) := by
  have hof : ∀ i : Fin dim, (BitVec.ofNat 64 i.val).toNat = i.val := by
    intro i
    rw [BitVec.toNat_ofNat, Nat.mod_eq_of_lt]
    have := i.isLt; omega
  apply runs_of_shared _ _ _ _ (fun i p => p = (true, BitVec.ofNat 64 i.val))
    (fun p => p.1 = false ∧ InState dim p.2)
  · intro i j a h1 h2
    rw [h1] at h2
    have := congrArg BitVec.toNat (Prod.ext_iff.1 h2).2
    simp only [hof] at this
    exact Fin.ext this
  · rintro i a rfl ⟨h, -⟩
    cases h
  · rintro i a rfl
    show (BitVec.ofNat 64 i.val).toNat < dim
    rw [hof]; exact i.isLt
  · rintro a ⟨-, h⟩; exact h
  · intro i
    show (if BitVec.ofNat 64 i.val &&& c = v then store (true, BitVec.ofNat 64 i.val) (0 : R)
      else load (false, BitVec.ofNat 64 i.val) >>= fun x => store (true, BitVec.ofNat 64 i.val) x).Within2 _ _
    split
    · exact ⟨rfl, trivial⟩
    · refine ⟨.inr ⟨rfl, ?_⟩, fun _ => ⟨rfl, trivial⟩⟩
      show (BitVec.ofNat 64 i.val).toNat < dim
      rw [hof]; exact i.isLt
  · rintro i a rfl
    show _ = (if BitVec.ofNat 64 i.val &&& c = v then store (true, BitVec.ofNat 64 i.val) (0 : R)
      else load (false, BitVec.ofNat 64 i.val) >>= fun x => store (true, BitVec.ofNat 64 i.val) x).exec _ _
    have hin : InState dim (BitVec.ofNat 64 i.val) := by
      show (BitVec.ofNat 64 i.val).toNat < dim
      rw [hof]; exact i.isLt
    split
    · rename_i h
      show (if InState dim (BitVec.ofNat 64 i.val) then _ else _) =
        Function.update (twoBuffers ψ junk) (true, BitVec.ofNat 64 i.val) 0 (true, BitVec.ofNat 64 i.val)
      rw [Function.update_self, if_pos hin, if_pos h]
    · rename_i h
      show (if InState dim (BitVec.ofNat 64 i.val) then _ else _) =
        Function.update (twoBuffers ψ junk) (true, BitVec.ofNat 64 i.val) (ψ (BitVec.ofNat 64 i.val))
          (true, BitVec.ofNat 64 i.val)
      rw [Function.update_self, if_pos hin, if_neg h]
  · rintro ⟨b, j⟩ h
    cases b with
    | false => rfl
    | true =>
      show (if InState dim j then _ else _) = junk j
      rw [if_neg]
      intro hj
      exact h ⟨j.toNat, hj⟩ (by simp)

theorem putBits_inBlock {t b : U64} {ts : List Nat} (h : MaskOf t ts) (x : Nat) : InBlock t b (putBits b ts x) := by
  intro i _ hti
  apply getLsbD_putBits_notMem b h.lt
  intro hm
  rw [h.bits] at hti
  simp [hm] at hti

theorem inBlock_putBits {t b j : U64} {ts : List Nat} (h : MaskOf t ts) (hj : InBlock t b j) (x : Nat) :
    putBits b ts x = putBits j ts x := by
  apply putBits_ext h.targetsOK
  intro i hi
  by_cases h64 : i < 64
  · exact (hj i h64 (by rw [h.bits]; simpa using hi)).symm
  · rw [getLsbD_high _ (by omega), getLsbD_high _ (by omega)]

/-- the outcome of the out-of-place kernels, for any arithmetic -/
def rowsOut [Zero R] [Add R] [Mul R] (dim : Nat) (c v : U64) (ts : List Nat) (rows : Fin (2 ^ ts.length) → List (R × Nat))
    (ψ : U64 → R) (j : U64) : R :=
  if InState dim j ∧ j &&& c = v then
    (rows ⟨getBits j ts, getBits_lt j ts⟩).foldl (fun s p => s + p.1 * ψ (putBits j ts p.2)) 0
  else ψ j

theorem rows_any [Zero R] [Add R] [Mul R] {B n : Nat} {t c v : U64} {ts : List Nat} (hM : MasksOK B n t c v)
    (hn : n < 64) (ht : MaskOf t ts) (hts : ∀ q ∈ ts, q < n)
    (rows : Fin (2 ^ ts.length) → List (R × Nat)) (hcols : ∀ r, ∀ p ∈ rows r, p.2 < 2 ^ ts.length) (ψ : U64 → R) :
    DRuns (B * 2 ^ n) (.outOfPlace (B * 2 ^ n) _ (2 ^ ts.length) (outOfPlaceInit c v (B * 2 ^ n))
      (outOfPlaceUpdate n t c v (2 ^ ts.length) rows (B * 2 ^ n))) ψ (rowsOut (B * 2 ^ n) c v ts rows ψ) := by
  intro junk
  refine ⟨_, twoBuffers ψ fun j => if InState (B * 2 ^ n) j then rowsOut (B * 2 ^ n) c v ts rows ψ j else junk j,
    init_runs hM.size c v ψ junk, ?_, ?_⟩
  · have hbase : ∀ rank : Fin (workItems (B * 2 ^ n) (t ||| c)),
        IsBase (B * 2 ^ n) t c v (insertZero (BitVec.ofNat 64 rank.val) (t ||| c) ||| v) :=
      fun rank => base_isBase hM rank.isLt
    have hsc : ∀ (rank : Fin (workItems (B * 2 ^ n) (t ||| c))) (x : Nat), x < 2 ^ ts.length →
        insertZero (BitVec.ofNat 64 x) (outerMask t n) ||| (insertZero (BitVec.ofNat 64 rank.val) (t ||| c) ||| v) =
          putBits (insertZero (BitVec.ofNat 64 rank.val) (t ||| c) ||| v) ts x := by
      intro rank x hx
      exact scatter_eq ht hn hts (hbase rank).target hx
    have hblk : ∀ (rank : Fin (workItems (B * 2 ^ n) (t ||| c))) (x : Nat),
        InBlock t (insertZero (BitVec.ofNat 64 rank.val) (t ||| c) ||| v)
          (putBits (insertZero (BitVec.ofNat 64 rank.val) (t ||| c) ||| v) ts x) :=
      fun rank x => putBits_inBlock ht x
    have hprog : ∀ i : Fin (workItems (B * 2 ^ n) (t ||| c)) × Fin (2 ^ ts.length),
        outOfPlaceUpdate n t c v (2 ^ ts.length) rows (B * 2 ^ n) i =
          (accumulate ((rows i.2).map fun p => (p.1, (false,
            insertZero (BitVec.ofNat 64 p.2) (outerMask t n) |||
              (insertZero (BitVec.ofNat 64 i.1.val) (t ||| c) ||| v)))) 0 >>= fun s =>
          store (true, putBits (insertZero (BitVec.ofNat 64 i.1.val) (t ||| c) ||| v) ts i.2.val) s) := by
      rintro ⟨rank, r⟩
      rw [← hsc rank r.val r.isLt]
      rfl
    apply runs_of_shared _ _ _ _
      (fun i p => p = (true, putBits (insertZero (BitVec.ofNat 64 i.1.val) (t ||| c) ||| v) ts i.2.val))
      (fun p => p.1 = false ∧ InState (B * 2 ^ n) p.2)
    · rintro ⟨rank, r⟩ ⟨rank', r'⟩ a h1 h2
      rw [h1] at h2
      have he := (Prod.ext_iff.1 h2).2
      simp only at he
      have hrank : rank = rank' := by
        refine Fin.ext (block_inj hM rank.isLt rank'.isLt (hblk rank r.val) ?_)
        rw [he]; exact hblk rank' r'.val
      subst hrank
      have := congrArg (fun j => getBits j ts) he
      simp only [getBits_putBits _ ht.targetsOK r.isLt, getBits_putBits _ ht.targetsOK r'.isLt] at this
      rw [Fin.ext this]
    · rintro i a rfl ⟨h, -⟩; cases h
    · rintro i a rfl
      exact (inBlock_mem hM (hbase i.1) (hblk i.1 _)).1
    · rintro a ⟨-, h⟩; exact h
    · rintro i
      rw [hprog]
      refine Prog.within2_bind (within2_accumulate _ _ ?_) fun s => ⟨rfl, trivial⟩
      intro p hp
      rw [List.mem_map] at hp
      obtain ⟨q, hq, rfl⟩ := hp
      refine ⟨rfl, ?_⟩
      simp only
      rw [hsc _ _ (hcols _ q hq)]
      exact (inBlock_mem hM (hbase i.1) (hblk i.1 _)).1
    · rintro ⟨rank, r⟩ a rfl
      rw [hprog, exec_accumulate, Function.update_self, List.foldl_map]
      obtain ⟨hin, hctl⟩ := inBlock_mem hM (hbase rank) (hblk rank r.val)
      show (if InState (B * 2 ^ n) (putBits _ ts r.val) then _ else _) = _
      rw [if_pos hin, rowsOut, if_pos ⟨hin, hctl⟩]
      have er : (⟨getBits (putBits (insertZero (BitVec.ofNat 64 rank.val) (t ||| c) ||| v) ts r.val) ts, getBits_lt _ ts⟩ :
          Fin (2 ^ ts.length)) = r := Fin.ext (getBits_putBits _ ht.targetsOK r.isLt)
      simp only [er, putBits_putBits _ ht.targetsOK]
      apply List.foldl_ext
      intro s p hp
      simp only [twoBuffers]
      rw [hsc _ _ (hcols _ p hp)]
      rfl
    · rintro ⟨b, j⟩ h
      cases b with
      | false => rfl
      | true =>
        show (if InState (B * 2 ^ n) j then _ else _) = (if InState (B * 2 ^ n) j then _ else _)
        by_cases hj : InState (B * 2 ^ n) j
        · rw [if_pos hj, if_pos hj]
          by_cases hc : j &&& c = v
          · exfalso
            obtain ⟨it, hit, hb⟩ := block_surj hM hj hc
            refine h (⟨it, hit⟩, ⟨getBits j ts, getBits_lt j ts⟩) ?_
            simp only
            rw [inBlock_putBits ht hb, putBits_getBits j ht.targetsOK]
          · rw [if_neg hc, rowsOut, if_neg fun h => hc h.2]
        · rw [if_neg hj, if_neg hj]
  · intro j
    show _ = if InState (B * 2 ^ n) j then (if InState (B * 2 ^ n) j then _ else _) else _
    by_cases hj : InState (B * 2 ^ n) j
    · rw [if_pos hj, if_pos hj]
    · rw [if_neg hj, rowsOut, if_neg fun h => hj h.1]

theorem rows_spec [CommSemiring R] {B n : Nat} {t c v : U64} {ts : List Nat} (hM : MasksOK B n t c v)
    (hn : n < 64) (ht : MaskOf t ts) (hts : ∀ q ∈ ts, q < n)
    (cs : List (Nat × Bool)) (hcs : ∀ j : U64, j &&& c = v ↔ CtrlOK cs j)
    (nRows : Nat) (hrows : nRows = 2 ^ ts.length) (rows : Fin nRows → List (R × Nat))
    (hcols : ∀ r, ∀ p ∈ rows r, p.2 < 2 ^ ts.length) (U : Nat → Nat → R)
    (hU : ∀ r, ∀ f : Nat → R,
      ((rows r).map fun p => p.1 * f p.2).sum = ∑ x ∈ Finset.range (2 ^ ts.length), U r.val x * f x) (ψ : U64 → R) :
    DRuns (B * 2 ^ n) (.outOfPlace (B * 2 ^ n) _ nRows (outOfPlaceInit c v (B * 2 ^ n))
      (outOfPlaceUpdate n t c v nRows rows (B * 2 ^ n))) ψ (onState (B * 2 ^ n) (applyMat ts U cs) ψ) := by
  subst hrows
  have h := rows_any hM hn ht hts rows hcols ψ
  have e : rowsOut (B * 2 ^ n) c v ts rows ψ = onState (B * 2 ^ n) (applyMat ts U cs) ψ := by
    funext j
    unfold rowsOut onState
    by_cases hj : InState (B * 2 ^ n) j
    · rw [if_pos (show j.toNat < _ from hj), applyMat]
      by_cases hc : j &&& c = v
      · rw [if_pos ⟨hj, hc⟩, if_pos ((hcs j).1 hc), foldl_sum, zero_add]
        exact hU _ fun x => ψ (putBits j ts x)
      · rw [if_neg fun h => hc h.2, if_neg (mt (hcs j).2 hc)]
    · rw [if_neg fun h => hj h.1, if_neg (show ¬ j.toNat < _ from hj)]
  rw [e] at h
  exact h

theorem multiDense_spec [CommSemiring R] {B n : Nat} {t c v : U64} {ts : List Nat} (hM : MasksOK B n t c v)
    (hn : n < 64) (ht : MaskOf t ts) (hts : ∀ q ∈ ts, q < n)
    (cs : List (Nat × Bool)) (hcs : ∀ j : U64, j &&& c = v ↔ CtrlOK cs j) (U : Nat → Nat → R) (ψ : U64 → R) :
    DRuns (B * 2 ^ n) (multiDense n t c v U (B * 2 ^ n)) ψ (onState (B * 2 ^ n) (applyMat ts U cs) ψ) := by
  unfold multiDense
  apply rows_spec hM hn ht hts cs hcs _ (by rw [popcount_maskOf ht])
  · intro r p hp
    rw [List.mem_map] at hp
    obtain ⟨s, hs, rfl⟩ := hp
    rw [popcount_maskOf ht] at hs
    simpa using hs
  · rintro ⟨r, hr⟩ f
    simp only
    clear hr
    rw [List.map_map, popcount_maskOf ht, Finset.sum_range]
    rw [← List.sum_ofFn]
    congr 1
    apply List.ext_getElem
    · simp
    · intro i h1 h2
      simp

end Verif.Proofs
