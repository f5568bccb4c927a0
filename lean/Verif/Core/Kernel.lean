import Verif.Core.Prog
import Verif.Core.Insert

/-! # Kernels over the amplitudes selected by target and control masks -/

namespace Verif
attribute [-simp] BitVec.getLsbD_eq_getElem

/-- `Kokkos::parallel_for(RangePolicy(0, N), body)` over one array of amplitudes
(e.g. /repo/src/gate/update_ops_standard.cpp:21-30). -/
def parallelFor {A R : Type} (N : Nat) (body : U64 → Prog A R Unit) : Pool (Fin N) A R :=
  fun it => body (BitVec.ofNat 64 it.val)

/-- index `j` is inside an array of `dim` amplitudes -/
def InState (dim : Nat) (j : U64) : Prop := j.toNat < dim

instance (dim : Nat) (j : U64) : Decidable (InState dim j) := inferInstanceAs (Decidable (_ < _))

/-- Well-formed operand masks of a gate on `B` states of `n` qubits: `t` targets, `c` controls, `v` control
values.  (Established by the gate factories and bounds checks, see `Verif.Model.Mask`.) -/
structure MasksOK (B n : Nat) (t c v : U64) : Prop where
  size : B * 2 ^ n ≤ 2 ^ 64
  fits : (t ||| c).toNat < 2 ^ n
  disj : ∀ i, (t.getLsbD i && c.getLsbD i) = false
  sub : ∀ i, v.getLsbD i = true → c.getLsbD i = true

theorem bit_and_eq {a b d : U64} (h : a &&& b = d) (i : Nat) :
    (a.getLsbD i && b.getLsbD i) = d.getLsbD i := by
  rw [← h, BitVec.getLsbD_and]

theorem and_eq_iff {a b d : U64} : a &&& b = d ↔ ∀ i, i < 64 → (a.getLsbD i && b.getLsbD i) = d.getLsbD i := by
  constructor
  · intro h i _; exact bit_and_eq h i
  · intro h; apply U64.ext; intro i hi; rw [BitVec.getLsbD_and]; exact h i hi

/-- whether an index is inside the state only depends on the bits at or above position `n` -/
theorem inState_congr {B n : Nat} {j j' : U64} (h : ∀ i, n ≤ i → j.getLsbD i = j'.getLsbD i) :
    InState (B * 2 ^ n) j ↔ InState (B * 2 ^ n) j' := by
  have : j.toNat / 2 ^ n = j'.toNat / 2 ^ n := by
    apply Nat.eq_of_testBit_eq
    intro k
    rw [Nat.testBit_div_two_pow, Nat.testBit_div_two_pow, BitVec.testBit_toNat, BitVec.testBit_toNat]
    exact h _ (by omega)
  unfold InState
  rw [← Nat.div_lt_iff_lt_mul (Nat.two_pow_pos n), ← Nat.div_lt_iff_lt_mul (Nat.two_pow_pos n), this]

namespace MasksOK
variable {B n : Nat} {t c v : U64}

theorem t_high (h : MasksOK B n t c v) {i : Nat} (hi : n ≤ i) : t.getLsbD i = false := by
  have := (toNat_lt_two_pow_iff _ _).1 h.fits i hi
  rw [BitVec.getLsbD_or] at this
  cases ht : t.getLsbD i <;> simp_all

theorem c_high (h : MasksOK B n t c v) {i : Nat} (hi : n ≤ i) : c.getLsbD i = false := by
  have := (toNat_lt_two_pow_iff _ _).1 h.fits i hi
  rw [BitVec.getLsbD_or] at this
  cases ht : c.getLsbD i <;> simp_all

theorem v_high (h : MasksOK B n t c v) {i : Nat} (hi : n ≤ i) : v.getLsbD i = false := by
  cases hv : v.getLsbD i with
  | false => rfl
  | true => have := h.sub i hv; rw [h.c_high hi] at this; cases this

end MasksOK

/-- `j` belongs to the block with base `b`: it agrees with `b` outside the target bits. -/
def InBlock (t b j : U64) : Prop := ∀ i, i < 64 → t.getLsbD i = false → j.getLsbD i = b.getLsbD i

/-- `b` is the base of a block: inside the state, target bits clear, control bits equal to the control values -/
structure IsBase (dim : Nat) (t c v b : U64) : Prop where
  inState : InState dim b
  target : ∀ i, t.getLsbD i = true → b.getLsbD i = false
  control : ∀ i, c.getLsbD i = true → b.getLsbD i = v.getLsbD i

theorem base_isBase {B n : Nat} {t c v : U64} (h : MasksOK B n t c v) {it : Nat}
    (hit : it < workItems (B * 2 ^ n) (t ||| c)) :
    IsBase (B * 2 ^ n) t c v (insertZero (BitVec.ofNat 64 it) (t ||| c) ||| v) := by
  obtain ⟨h1, h2⟩ := item_mem h.fits h.size hit
  have hz : ∀ i, ((insertZero (BitVec.ofNat 64 it) (t ||| c)).getLsbD i &&
      (t.getLsbD i || c.getLsbD i)) = false := by
    intro i
    have := bit_and_eq h2 i
    rw [BitVec.getLsbD_or] at this
    simpa using this
  refine ⟨?_, ?_, ?_⟩
  · refine (inState_congr (B := B) (n := n) (j' := insertZero (BitVec.ofNat 64 it) (t ||| c)) ?_).2 h1
    intro i hi
    rw [BitVec.getLsbD_or, h.v_high hi, Bool.or_false]
  · intro i hti
    have e1 := hz i
    have e2 := h.disj i
    rw [BitVec.getLsbD_or]
    cases hv : v.getLsbD i with
    | false => simp_all
    | true => have := h.sub i hv; simp_all
  · intro i hci
    have e1 := hz i
    rw [BitVec.getLsbD_or]
    simp_all

/-- every index of the state satisfying the controls lies in the block of a work item -/
theorem block_surj {B n : Nat} {t c v : U64} (h : MasksOK B n t c v) {j : U64}
    (hj : InState (B * 2 ^ n) j) (hc : j &&& c = v) :
    ∃ it, it < workItems (B * 2 ^ n) (t ||| c) ∧
      InBlock t (insertZero (BitVec.ofNat 64 it) (t ||| c) ||| v) j := by
  have hx : InState (B * 2 ^ n) (j &&& ~~~(t ||| c)) := by
    refine (inState_congr (B := B) (n := n) (j' := j) ?_).2 hj
    intro i hi
    rw [BitVec.getLsbD_and, BitVec.getLsbD_not, BitVec.getLsbD_or, h.t_high hi, h.c_high hi]
    by_cases h64 : i < 64
    · simp [h64]
    · simp [getLsbD_high j (by omega : 64 ≤ i)]
  have hz : (j &&& ~~~(t ||| c)) &&& (t ||| c) = 0 := by
    rw [and_eq_iff]
    intro i hi
    simp only [BitVec.getLsbD_and, BitVec.getLsbD_not, BitVec.getLsbD_or, hi]
    cases j.getLsbD i <;> cases t.getLsbD i <;> cases c.getLsbD i <;> simp
  obtain ⟨it, hit, he⟩ := item_surj h.fits hx hz
  refine ⟨it, hit, ?_⟩
  intro i hi ht
  rw [he]
  have e := bit_and_eq hc i
  simp only [BitVec.getLsbD_and, BitVec.getLsbD_not, BitVec.getLsbD_or, hi, ht]
  rw [← e]
  cases j.getLsbD i <;> cases c.getLsbD i <;> simp

/-- blocks of different work items are disjoint -/
theorem block_inj {B n : Nat} {t c v : U64} (h : MasksOK B n t c v) {it it' : Nat}
    (hit : it < workItems (B * 2 ^ n) (t ||| c)) (hit' : it' < workItems (B * 2 ^ n) (t ||| c)) {j : U64}
    (h1 : InBlock t (insertZero (BitVec.ofNat 64 it) (t ||| c) ||| v) j)
    (h2 : InBlock t (insertZero (BitVec.ofNat 64 it') (t ||| c) ||| v) j) : it = it' := by
  apply item_inj h.fits h.size hit hit'
  obtain ⟨-, hz⟩ := item_mem h.fits h.size hit
  obtain ⟨-, hz'⟩ := item_mem h.fits h.size hit'
  apply U64.ext
  intro i hi
  have e1 := bit_and_eq hz i
  have e2 := bit_and_eq hz' i
  rw [BitVec.getLsbD_or] at e1 e2
  cases ht : t.getLsbD i with
  | true => simp_all
  | false =>
    have f1 := h1 i hi ht
    have f2 := h2 i hi ht
    rw [BitVec.getLsbD_or] at f1 f2
    rw [f1] at f2
    cases hc : c.getLsbD i with
    | true => simp_all
    | false =>
      have hv : v.getLsbD i = false := by
        cases hv : v.getLsbD i with
        | false => rfl
        | true => have := h.sub i hv; rw [hc] at this; cases this
      simpa [hv] using f2

/-- an index in a block is inside the state and satisfies the controls -/
theorem inBlock_mem {B n : Nat} {t c v : U64} (h : MasksOK B n t c v) {b j : U64}
    (hb : IsBase (B * 2 ^ n) t c v b) (hj : InBlock t b j) :
    InState (B * 2 ^ n) j ∧ j &&& c = v := by
  constructor
  · refine (inState_congr (B := B) (n := n) (j' := b) ?_).2 hb.inState
    intro i hi
    by_cases h64 : i < 64
    · exact hj i h64 (h.t_high hi)
    · rw [getLsbD_high j (by omega), getLsbD_high b (by omega)]
  · rw [and_eq_iff]
    intro i hi
    cases hc : c.getLsbD i with
    | true =>
      have ht : t.getLsbD i = false := by
        have := h.disj i; rw [hc] at this; simpa using this
      rw [hj i hi ht, hb.control i hc]; simp
    | false =>
      cases hv : v.getLsbD i with
      | false => simp
      | true => have := h.sub i hv; rw [hc] at this; cases this

/-- **Kernel theorem.**  A kernel whose work item `it` runs `g base` with
`base = insert_zero_at_mask_positions(it, t | c) | v` and touches only the block of `base` is free of undefined
behaviour and races under every schedule and ends in any memory `m'` that agrees with `g base` run alone on
every block and with the initial memory elsewhere. -/
theorem maskKernel_runs {R : Type} {B n : Nat} {t c v : U64} (h : MasksOK B n t c v)
    (g : U64 → Prog U64 R Unit) (m m' : U64 → R)
    (hwithin : ∀ b, IsBase (B * 2 ^ n) t c v b → (g b).Within (InBlock t b))
    (hin : ∀ b j, IsBase (B * 2 ^ n) t c v b → InBlock t b j → m' j = (g b).exec m j)
    (hout : ∀ j, ¬ (InState (B * 2 ^ n) j ∧ j &&& c = v) → m' j = m j) :
    Runs (InState (B * 2 ^ n))
      (parallelFor (workItems (B * 2 ^ n) (t ||| c)) (fun it => g (insertZero it (t ||| c) ||| v))) m m' := by
  apply runs_of_disjoint _ _ _ _
    (fun it j => InBlock t (insertZero (BitVec.ofNat 64 it.val) (t ||| c) ||| v) j)
  · intro i i' a h1 h2
    exact Fin.ext (block_inj h i.isLt i'.isLt h1 h2)
  · intro i a ha
    exact (inBlock_mem h (base_isBase h i.isLt) ha).1
  · intro i
    exact hwithin _ (base_isBase h i.isLt)
  · intro i a ha
    exact hin _ _ (base_isBase h i.isLt) ha
  · intro a ha
    apply hout
    rintro ⟨h1, h2⟩
    obtain ⟨it, hit, hb⟩ := block_surj h h1 h2
    exact ha ⟨it, hit⟩ hb

end Verif
