import Verif.Model.Pauli
import Verif.Proofs.Kernels
import Verif.Core.Count

/-! # The kernels that exchange the amplitudes of `b` and `b ^ x` -/

namespace Verif.Proofs
open Verif Verif.Spec Verif.Model
attribute [-simp] BitVec.getLsbD_eq_getElem

theorem pivotOf_spec {x : U64} (hx : x ≠ 0) : pivotOf x < 64 ∧ x.getLsbD (pivotOf x) = true := by
  have h0 : x.toNat ≠ 0 := by
    intro e; apply hx; apply BitVec.eq_of_toNat_eq; simpa using e
  refine ⟨?_, ?_⟩
  · unfold pivotOf
    rw [Nat.log2_lt h0]; exact x.isLt
  · unfold pivotOf
    rw [← BitVec.testBit_toNat]; exact Nat.testBit_log2 h0

/-- what the flip kernels need to know about their masks -/
structure FlipOK (B n : Nat) (c v x : U64) : Prop where
  size : B * 2 ^ n ≤ 2 ^ 64
  cfits : c.toNat < 2 ^ n
  xfits : x.toNat < 2 ^ n
  disj : ∀ i, (x.getLsbD i && c.getLsbD i) = false
  sub : ∀ i, v.getLsbD i = true → c.getLsbD i = true

namespace FlipOK
variable {B n : Nat} {c v x : U64}

theorem x_high (h : FlipOK B n c v x) {i : Nat} (hi : n ≤ i) : x.getLsbD i = false :=
  (toNat_lt_two_pow_iff _ _).1 h.xfits i hi

theorem isBit (hx : x ≠ 0) : IsBit (1#64 <<< pivotOf x) (pivotOf x) :=
  ⟨(pivotOf_spec hx).1, getLsbD_one_shl (pivotOf_spec hx).1⟩

theorem pivot_lt (h : FlipOK B n c v x) (hx : x ≠ 0) : pivotOf x < n := by
  by_contra hn
  have := h.x_high (by omega : n ≤ pivotOf x)
  rw [(pivotOf_spec hx).2] at this
  cases this

theorem masks (h : FlipOK B n c v x) (hx : x ≠ 0) : MasksOK B n (1#64 <<< pivotOf x) c v := by
  refine ⟨h.size, ?_, ?_, h.sub⟩
  · rw [toNat_lt_two_pow_iff]
    intro i hi
    have hp := h.pivot_lt hx
    rw [BitVec.getLsbD_or, (isBit hx).2, (toNat_lt_two_pow_iff _ _).1 h.cfits i hi]
    have : i ≠ pivotOf x := by omega
    simp [this]
  · intro i
    rw [(isBit hx).2]
    by_cases e : i = pivotOf x
    · subst e
      have := h.disj (pivotOf x)
      rw [(pivotOf_spec hx).2] at this
      simpa using this
    · simp [e]

theorem inState_xor (h : FlipOK B n c v x) (j : U64) :
    InState (B * 2 ^ n) (j ^^^ x) ↔ InState (B * 2 ^ n) j := by
  apply inState_congr
  intro i hi
  rw [BitVec.getLsbD_xor, h.x_high hi, Bool.xor_false]

theorem ctrl_xor (h : FlipOK B n c v x) (j : U64) : (j ^^^ x) &&& c = v ↔ j &&& c = v := by
  have : (j ^^^ x) &&& c = j &&& c := by
    apply U64.ext; intro i _
    have := h.disj i
    rw [BitVec.getLsbD_and, BitVec.getLsbD_and, BitVec.getLsbD_xor]
    cases hx : x.getLsbD i <;> cases hc : c.getLsbD i <;> simp_all
  rw [this]

theorem items (h : FlipOK B n c v x) (hx : x ≠ 0) (dim : Nat) :
    workItems dim (1#64 <<< pivotOf x ||| c) = dim >>> (popcount c + 1) := by
  unfold workItems
  rw [popcount_or_disj (h.masks hx).disj, popcount_isBit (isBit hx).1 (isBit hx).2, Nat.add_comm]

end FlipOK

theorem xor_ne {x : U64} (hx : x ≠ 0) (b : U64) : b ≠ b ^^^ x := by
  intro e
  obtain ⟨-, h⟩ := pivotOf_spec hx
  have := congrArg (fun y => BitVec.getLsbD y (pivotOf x)) e
  simp [BitVec.getLsbD_xor, h] at this

theorem xor_xor_cancel (b x : U64) : b ^^^ x ^^^ x = b := by
  apply U64.ext; intro i _
  simp only [BitVec.getLsbD_xor]
  cases b.getLsbD i <;> cases x.getLsbD i <;> rfl

/-- **Kernel theorem for pairs `{b, b ^ x}`** where `b` has the highest bit of `x` clear. -/
theorem flipKernel_runs {R : Type} {B n : Nat} {c v x : U64} (h : FlipOK B n c v x) (hx : x ≠ 0)
    (G : U64 → Prog U64 R Unit) (m m' : U64 → R)
    (hwithin : ∀ b, (G b).Within (fun j => j = b ∨ j = b ^^^ x))
    (h0 : ∀ b, InState (B * 2 ^ n) b → b &&& c = v → m' b = (G b).exec m b)
    (h1 : ∀ b, InState (B * 2 ^ n) b → b &&& c = v → m' (b ^^^ x) = (G b).exec m (b ^^^ x))
    (hout : ∀ j, ¬ (InState (B * 2 ^ n) j ∧ j &&& c = v) → m' j = m j) :
    Runs (InState (B * 2 ^ n)) (parallelFor ((B * 2 ^ n) >>> (popcount c + 1))
      (fun i => G (insertZero i (c ||| (1#64 <<< pivotOf x)) ||| v))) m m' := by
  have hM := h.masks hx
  have hb := FlipOK.isBit hx
  obtain ⟨hp64, hpx⟩ := pivotOf_spec hx
  rw [← h.items hx]
  simp only [BitVec.or_comm c]
  generalize 1#64 <<< pivotOf x = t at hM hb
  have base : ∀ it : Fin (workItems (B * 2 ^ n) (t ||| c)),
      IsBase (B * 2 ^ n) t c v (insertZero (BitVec.ofNat 64 it.val) (t ||| c) ||| v) :=
    fun it => base_isBase hM it.isLt
  have bit0 : ∀ it : Fin (workItems (B * 2 ^ n) (t ||| c)),
      (insertZero (BitVec.ofNat 64 it.val) (t ||| c) ||| v).getLsbD (pivotOf x) = false :=
    fun it => (base it).target _ (by rw [hb.2]; simp)
  have bmem : ∀ it : Fin (workItems (B * 2 ^ n) (t ||| c)),
      InState (B * 2 ^ n) (insertZero (BitVec.ofNat 64 it.val) (t ||| c) ||| v) ∧
      (insertZero (BitVec.ofNat 64 it.val) (t ||| c) ||| v) &&& c = v :=
    fun it => inBlock_mem hM (base it) (fun _ _ _ => rfl)
  have self : ∀ it it' : Fin (workItems (B * 2 ^ n) (t ||| c)),
      insertZero (BitVec.ofNat 64 it.val) (t ||| c) ||| v =
      insertZero (BitVec.ofNat 64 it'.val) (t ||| c) ||| v → it = it' := by
    intro it it' e
    refine Fin.ext (block_inj hM it.isLt it'.isLt (j := insertZero (BitVec.ofNat 64 it.val) (t ||| c) ||| v)
      (fun _ _ _ => rfl) ?_)
    rw [e]; exact fun _ _ _ => rfl
  refine runs_of_disjoint _ _ _ _ (fun it j => j = insertZero (BitVec.ofNat 64 it.val) (t ||| c) ||| v ∨
    j = (insertZero (BitVec.ofNat 64 it.val) (t ||| c) ||| v) ^^^ x) ?_ ?_ ?_ ?_ ?_
  · intro i j a ha ha'
    have cross : ∀ i j : Fin (workItems (B * 2 ^ n) (t ||| c)),
        insertZero (BitVec.ofNat 64 i.val) (t ||| c) ||| v ≠
        (insertZero (BitVec.ofNat 64 j.val) (t ||| c) ||| v) ^^^ x := by
      intro i j e
      have := congrArg (fun y => BitVec.getLsbD y (pivotOf x)) e
      rw [BitVec.getLsbD_xor, bit0, bit0, hpx] at this
      cases this
    rcases ha with ha | ha <;> rcases ha' with ha' | ha'
    · exact self _ _ (ha.symm.trans ha')
    · exact absurd (ha.symm.trans ha') (cross i j)
    · exact absurd (ha'.symm.trans ha) (cross j i)
    · apply self
      have e := congrArg (· ^^^ x) (ha.symm.trans ha')
      simpa only [xor_xor_cancel] using e
  · rintro i a (rfl | rfl)
    · exact (bmem i).1
    · exact (h.inState_xor _).2 (bmem i).1
  · intro i
    exact hwithin _
  · rintro i a (rfl | rfl)
    · exact h0 _ (bmem i).1 (bmem i).2
    · exact h1 _ (bmem i).1 (bmem i).2
  · intro j hj
    apply hout
    rintro ⟨hin, hc⟩
    cases hbit : j.getLsbD (pivotOf x) with
    | false =>
      obtain ⟨it, hit, hB⟩ := block_surj hM hin hc
      rcases (inBlock_one hb (bit0 ⟨it, hit⟩)).1 hB with ⟨e, -⟩ | ⟨-, e⟩
      · exact hj ⟨it, hit⟩ (.inl e)
      · rw [hbit] at e; cases e
    | true =>
      obtain ⟨it, hit, hB⟩ := block_surj hM ((h.inState_xor j).2 hin) ((h.ctrl_xor j).2 hc)
      rcases (inBlock_one hb (bit0 ⟨it, hit⟩)).1 hB with ⟨e, -⟩ | ⟨-, e⟩
      · refine hj ⟨it, hit⟩ (.inr ?_)
        show j = (insertZero (BitVec.ofNat 64 it) (t ||| c) ||| v) ^^^ x
        rw [← e, xor_xor_cancel]
      · rw [BitVec.getLsbD_xor, hbit, hpx] at e; cases e

/-- kernels that multiply each selected amplitude by a factor depending on its index -/
theorem scaleKernel_runs {R : Type} {B n : Nat} {c v : U64} (h : MasksOK B n 0 c v)
    (G : U64 → Prog U64 R Unit) (m m' : U64 → R)
    (hwithin : ∀ b, (G b).Within (fun j => j = b))
    (h0 : ∀ b, InState (B * 2 ^ n) b → b &&& c = v → m' b = (G b).exec m b)
    (hout : ∀ j, ¬ (InState (B * 2 ^ n) j ∧ j &&& c = v) → m' j = m j) :
    Runs (InState (B * 2 ^ n)) (parallelFor (workItems (B * 2 ^ n) c) (fun i => G (insertZero i c ||| v))) m m' := by
  have hz : (0 : U64) ||| c = c := by simp
  have := maskKernel_runs h G m m' ?_ ?_ hout
  · rw [hz] at this; exact this
  · intro b _
    refine Prog.within_mono ?_ (hwithin b)
    rintro a rfl i _ _; rfl
  · intro b j hb hj
    obtain rfl : j = b := U64.ext fun i hi => hj i hi (by simp)
    have hmem := inBlock_mem h hb hj
    exact h0 _ hmem.1 hmem.2

end Verif.Proofs
