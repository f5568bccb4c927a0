import Verif.Core.Kernel

/-! # Kernels with one or two target bits -/

namespace Verif
attribute [-simp] BitVec.getLsbD_eq_getElem

namespace Prog
variable {A R α β : Type}

@[simp] theorem bind_load (a : A) (f : R → Prog A R β) : (load a >>= f) = .read a f := rfl
@[simp] theorem bind_store (a : A) (v : R) (f : Unit → Prog A R β) :
    (store a v >>= f) = .write a v (f ()) := rfl
@[simp] theorem bind_pure' (a : α) (f : α → Prog A R β) : (Prog.pure a >>= f) = f a := rfl
@[simp] theorem bind_pure'' (a : α) (f : α → Prog A R β) : ((Pure.pure a : Prog A R α) >>= f) = f a := rfl
@[simp] theorem bind_read (a : A) (k : R → Prog A R α) (f : α → Prog A R β) :
    (Prog.read a k >>= f) = .read a (fun v => k v >>= f) := rfl
@[simp] theorem bind_write (a : A) (v : R) (k : Prog A R α) (f : α → Prog A R β) :
    (Prog.write a v k >>= f) = .write a v (k >>= f) := rfl
theorem load_def (a : A) : (load a : Prog A R R) = .read a .pure := rfl
theorem store_def (a : A) (v : R) : store a v = .write a v (.pure ()) := rfl
end Prog

/-- the word `t` has exactly bit `q` set -/
def IsBit (t : U64) (q : Nat) : Prop := q < 64 ∧ ∀ i, t.getLsbD i = decide (i = q)

theorem IsBit.eq {t : U64} {q : Nat} (h : IsBit t q) : t = BitVec.ofNat 64 (2 ^ q) := by
  apply U64.ext; intro i hi
  rw [h.2 i, BitVec.getLsbD_ofNat, Nat.testBit_two_pow]
  simp only [hi, decide_true, Bool.true_and]
  congr 1; exact propext eq_comm

theorem isBit_ofNat {q : Nat} (h : q < 64) : IsBit (BitVec.ofNat 64 (2 ^ q)) q := by
  refine ⟨h, fun i => ?_⟩
  rw [BitVec.getLsbD_ofNat, Nat.testBit_two_pow]
  by_cases hi : i = q
  · subst hi; simp [h]
  · have : q ≠ i := fun e => hi e.symm
    simp [hi, this]

theorem getLsbD_or_bit {t : U64} {q : Nat} (h : IsBit t q) (b : U64) (i : Nat) :
    (b ||| t).getLsbD i = (b.getLsbD i || decide (i = q)) := by
  rw [BitVec.getLsbD_or, h.2]

theorem ne_or_bit {t b : U64} {q : Nat} (h : IsBit t q) (hb : b.getLsbD q = false) : b ≠ b ||| t := by
  intro e
  have := congrArg (fun x => BitVec.getLsbD x q) e
  simp [getLsbD_or_bit h, hb] at this

/-- members of a one-target block -/
theorem inBlock_one {t b j : U64} {q : Nat} (h : IsBit t q) (hb : b.getLsbD q = false) :
    InBlock t b j ↔ (j = b ∧ j.getLsbD q = false) ∨ (j = b ||| t ∧ j.getLsbD q = true) := by
  constructor
  · intro hj
    cases hq : j.getLsbD q with
    | false =>
      left
      refine ⟨U64.ext fun i hi => ?_, rfl⟩
      by_cases hiq : i = q
      · subst hiq; rw [hq, hb]
      · exact hj i hi (by rw [h.2]; simp [hiq])
    | true =>
      right
      refine ⟨U64.ext fun i hi => ?_, rfl⟩
      rw [getLsbD_or_bit h]
      by_cases hiq : i = q
      · subst hiq; rw [hq]; simp
      · rw [hj i hi (by rw [h.2]; simp [hiq])]; simp [hiq]
  · rintro (⟨rfl, -⟩ | ⟨rfl, -⟩) i hi ht
    · rfl
    · rw [BitVec.getLsbD_or, ht, Bool.or_false]

/-- Kernel theorem for one target bit: `f0`/`f1` compute the new amplitudes of the index with the target bit
clear/set from the two old ones. -/
theorem oneTarget_runs {R : Type} {B n q : Nat} {t c v : U64} (h : MasksOK B n t c v) (hq : IsBit t q)
    (g : U64 → Prog U64 R Unit) (f0 f1 : R → R → R) (m m' : U64 → R)
    (hwithin : ∀ b, b ≠ b ||| t → (g b).Within (fun j => j = b ∨ j = b ||| t))
    (h0 : ∀ b, b ≠ b ||| t → (g b).exec m b = f0 (m b) (m (b ||| t)))
    (h1 : ∀ b, b ≠ b ||| t → (g b).exec m (b ||| t) = f1 (m b) (m (b ||| t)))
    (hm' : ∀ j, m' j = if InState (B * 2 ^ n) j ∧ j &&& c = v then
        (if j.getLsbD q then f1 (m (j &&& ~~~t)) (m j) else f0 (m j) (m (j ||| t))) else m j) :
    Runs (InState (B * 2 ^ n))
      (parallelFor (workItems (B * 2 ^ n) (t ||| c)) (fun it => g (insertZero it (t ||| c) ||| v))) m m' := by
  apply maskKernel_runs h
  · intro b hb
    have hbq : b.getLsbD q = false := hb.target q (by rw [hq.2]; simp)
    refine Prog.within_mono ?_ (hwithin b (ne_or_bit hq hbq))
    rintro a (rfl | rfl)
    · intro i _ _; rfl
    · intro i _ ht; rw [BitVec.getLsbD_or, ht, Bool.or_false]
  · intro b j hb hj
    have hbq : b.getLsbD q = false := hb.target q (by rw [hq.2]; simp)
    have hmem := inBlock_mem h hb hj
    rw [hm' j, if_pos hmem]
    rcases (inBlock_one hq hbq).1 hj with ⟨rfl, e⟩ | ⟨rfl, e⟩
    · rw [if_neg (by simp [e]), h0 _ (ne_or_bit hq hbq)]
    · rw [if_pos e, h1 _ (ne_or_bit hq hbq)]
      congr 2
      apply U64.ext; intro i hi
      rw [BitVec.getLsbD_and, BitVec.getLsbD_not, getLsbD_or_bit hq, hq.2]
      by_cases hiq : i = q
      · subst hiq; simp [hbq]
      · simp [hiq, hi]
  · intro j hj
    rw [hm' j, if_neg hj]

/-! ## two target bits -/

/-- the four distinct addresses of a two-target block -/
structure Distinct4 (b t0 t1 : U64) : Prop where
  d01 : b ≠ b ||| t0
  d02 : b ≠ b ||| t1
  d03 : b ≠ b ||| t0 ||| t1
  d12 : b ||| t0 ≠ b ||| t1
  d13 : b ||| t0 ≠ b ||| t0 ||| t1
  d23 : b ||| t1 ≠ b ||| t0 ||| t1

theorem distinct4 {b t0 t1 : U64} {q0 q1 : Nat} (h0 : IsBit t0 q0) (h1 : IsBit t1 q1) (hne : q0 ≠ q1)
    (hb0 : b.getLsbD q0 = false) (hb1 : b.getLsbD q1 = false) : Distinct4 b t0 t1 := by
  have key : ∀ x y : U64, x.getLsbD q0 ≠ y.getLsbD q0 ∨ x.getLsbD q1 ≠ y.getLsbD q1 → x ≠ y := by
    rintro x y h rfl; simp at h
  have hne' : q1 ≠ q0 := fun e => hne e.symm
  constructor <;> apply key <;> simp [getLsbD_or_bit h0, getLsbD_or_bit h1, hb0, hb1, hne, hne']

/-- members of a two-target block -/
theorem inBlock_two {t0 t1 b j : U64} {q0 q1 : Nat} (h0 : IsBit t0 q0) (h1 : IsBit t1 q1) (hne : q0 ≠ q1)
    (hb0 : b.getLsbD q0 = false) (hb1 : b.getLsbD q1 = false) (hj : InBlock (t0 ||| t1) b j) :
    j = (if j.getLsbD q0 then (if j.getLsbD q1 then b ||| t0 ||| t1 else b ||| t0)
      else (if j.getLsbD q1 then b ||| t1 else b)) := by
  have hne' : q1 ≠ q0 := fun e => hne e.symm
  cases e0 : j.getLsbD q0 <;> cases e1 : j.getLsbD q1 <;>
    simp only [if_true, Bool.false_eq_true, if_false] <;> apply U64.ext <;> intro i hi <;>
    (by_cases hi0 : i = q0
     · subst hi0; simp [getLsbD_or_bit h0, getLsbD_or_bit h1, hb0, e0, hne]
     · by_cases hi1 : i = q1
       · subst hi1; simp [getLsbD_or_bit h0, getLsbD_or_bit h1, hb1, e1, hne']
       · have := hj i hi (by rw [BitVec.getLsbD_or, h0.2, h1.2]; simp [hi0, hi1])
         simp [getLsbD_or_bit h0, getLsbD_or_bit h1, this, hi0, hi1])

/-- Kernel theorem for two target bits `q0`, `q1`: `f x0 x1` computes the new amplitude of the index with target
bits `x0`, `x1` from the four old ones (in the order 00, 10, 01, 11 of `(q0,q1)`). -/
theorem twoTarget_runs {R : Type} {B n q0 q1 : Nat} {t t0 t1 c v : U64} (ht : t = t0 ||| t1)
    (h : MasksOK B n t c v) (hq0 : IsBit t0 q0) (hq1 : IsBit t1 q1) (hne : q0 ≠ q1)
    (g : U64 → Prog U64 R Unit) (f : Bool → Bool → R → R → R → R → R) (m m' : U64 → R)
    (hwithin : ∀ b, Distinct4 b t0 t1 →
      (g b).Within (fun j => j = b ∨ j = b ||| t0 ∨ j = b ||| t1 ∨ j = b ||| t0 ||| t1))
    (h00 : ∀ b, Distinct4 b t0 t1 → (g b).exec m b =
      f false false (m b) (m (b ||| t0)) (m (b ||| t1)) (m (b ||| t0 ||| t1)))
    (h10 : ∀ b, Distinct4 b t0 t1 → (g b).exec m (b ||| t0) =
      f true false (m b) (m (b ||| t0)) (m (b ||| t1)) (m (b ||| t0 ||| t1)))
    (h01 : ∀ b, Distinct4 b t0 t1 → (g b).exec m (b ||| t1) =
      f false true (m b) (m (b ||| t0)) (m (b ||| t1)) (m (b ||| t0 ||| t1)))
    (h11 : ∀ b, Distinct4 b t0 t1 → (g b).exec m (b ||| t0 ||| t1) =
      f true true (m b) (m (b ||| t0)) (m (b ||| t1)) (m (b ||| t0 ||| t1)))
    (hm' : ∀ j, m' j = if InState (B * 2 ^ n) j ∧ j &&& c = v then
        f (j.getLsbD q0) (j.getLsbD q1) (m (j &&& ~~~t0 &&& ~~~t1)) (m ((j ||| t0) &&& ~~~t1))
          (m (j &&& ~~~t0 ||| t1)) (m (j ||| t0 ||| t1)) else m j) :
    Runs (InState (B * 2 ^ n))
      (parallelFor (workItems (B * 2 ^ n) (t ||| c)) (fun it => g (insertZero it (t ||| c) ||| v))) m m' := by
  subst ht
  have hne' : q1 ≠ q0 := fun e => hne e.symm
  have bits : ∀ b, IsBase (B * 2 ^ n) (t0 ||| t1) c v b → b.getLsbD q0 = false ∧ b.getLsbD q1 = false := by
    intro b hb
    exact ⟨hb.target q0 (by rw [BitVec.getLsbD_or, hq0.2]; simp),
      hb.target q1 (by rw [BitVec.getLsbD_or, hq1.2]; simp)⟩
  apply maskKernel_runs h
  · intro b hb
    obtain ⟨hb0, hb1⟩ := bits b hb
    refine Prog.within_mono ?_ (hwithin b (distinct4 hq0 hq1 hne hb0 hb1))
    rintro a (rfl | rfl | rfl | rfl) i _ hti <;> rw [BitVec.getLsbD_or] at hti <;>
      simp only [Bool.or_eq_false_iff] at hti <;> simp [BitVec.getLsbD_or, hti.1, hti.2]
  · intro b j hb hj
    obtain ⟨hb0, hb1⟩ := bits b hb
    have hd := distinct4 hq0 hq1 hne hb0 hb1
    have hmem := inBlock_mem h hb hj
    have hj' := inBlock_two hq0 hq1 hne hb0 hb1 hj
    rw [hm' j, if_pos hmem]
    have a0 : j &&& ~~~t0 &&& ~~~t1 = b := by
      apply U64.ext; intro i hi
      simp only [BitVec.getLsbD_and, BitVec.getLsbD_not, hq0.2, hq1.2, hi]
      by_cases hi0 : i = q0
      · subst hi0; simp [hb0]
      · by_cases hi1 : i = q1
        · subst hi1; simp [hb1]
        · have := hj i hi (by rw [BitVec.getLsbD_or, hq0.2, hq1.2]; simp [hi0, hi1])
          simp [hi0, hi1, this]
    have a1 : (j ||| t0) &&& ~~~t1 = b ||| t0 := by
      rw [← a0]; apply U64.ext; intro i hi
      simp only [BitVec.getLsbD_or, BitVec.getLsbD_and, BitVec.getLsbD_not, hq0.2, hq1.2, hi]
      by_cases hi0 : i = q0
      · subst hi0; simp [hne]
      · by_cases hi1 : i = q1 <;> simp [hi0, hi1, hne']
    have a2 : (j &&& ~~~t0) ||| t1 = b ||| t1 := by
      rw [← a0]; apply U64.ext; intro i hi
      simp only [BitVec.getLsbD_or, BitVec.getLsbD_and, BitVec.getLsbD_not, hq0.2, hq1.2, hi]
      by_cases hi0 : i = q0
      · subst hi0; simp [hne]
      · by_cases hi1 : i = q1 <;> simp [hi0, hi1, hne']
    have a3 : j ||| t0 ||| t1 = b ||| t0 ||| t1 := by
      rw [← a0]; apply U64.ext; intro i hi
      simp only [BitVec.getLsbD_or, BitVec.getLsbD_and, BitVec.getLsbD_not, hq0.2, hq1.2, hi]
      by_cases hi0 : i = q0
      · subst hi0; simp [hne]
      · by_cases hi1 : i = q1 <;> simp [hi0, hi1, hne']
    rw [a0, a1, a2, a3]
    cases e0 : j.getLsbD q0 <;> cases e1 : j.getLsbD q1 <;>
      simp only [e0, e1, if_true, Bool.false_eq_true, if_false] at hj' <;> rw [hj']
    · exact (h00 b hd).symm
    · exact (h01 b hd).symm
    · exact (h10 b hd).symm
    · exact (h11 b hd).symm
  · intro j hj
    rw [hm' j, if_neg hj]

/-- `t & -t` isolates the lowest set bit -/
theorem lowest_bit {t : U64} {q0 q1 : Nat} (hlt : q0 < q1) (h1 : q1 < 64)
    (ht : ∀ i, t.getLsbD i = (decide (i = q0) || decide (i = q1))) :
    IsBit (t &&& -t) q0 ∧ IsBit (t ^^^ (t &&& -t)) q1 := by
  have htne : t ≠ 0 := by
    intro e; have := ht q0; rw [e] at this; simp at this
  obtain ⟨p, hp, hset, hlow, hsub⟩ := low_bit t htne
  have hpq : p = q0 := by
    rcases Nat.lt_trichotomy p q0 with h | h | h
    · rw [ht p] at hset; simp at hset; omega
    · exact h
    · have := hlow q0 h; rw [ht q0] at this; simp at this
  subst hpq
  have hneg : -t = ~~~(t - 1) := by
    have h1 := BitVec.neg_eq_not_add (x := t)
    have h2 := BitVec.not_sub_one_eq_not_add_one (x := t)
    rw [h1]; exact h2.symm
  have hA : IsBit (t &&& -t) p := by
    refine ⟨hp, fun i => ?_⟩
    by_cases hi : i < 64
    · rw [BitVec.getLsbD_and, hneg, BitVec.getLsbD_not, hsub i hi]
      by_cases h3 : i < p
      · have : i ≠ p := by omega
        simp [h3, this]
      · by_cases h4 : i = p
        · subst h4; simp [hset, hi]
        · simp [h3, h4, hi]
    · have : i ≠ p := by omega
      simp [this, getLsbD_high _ (by omega : 64 ≤ i)]
  refine ⟨hA, h1, fun i => ?_⟩
  rw [BitVec.getLsbD_xor, hA.2, ht i]
  by_cases h3 : i = p
  · subst h3
    have : i ≠ q1 := by omega
    simp [this]
  · simp [h3]

end Verif
