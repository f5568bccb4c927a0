import Verif.Model.Simd
import Verif.Core.Lanes
import Verif.Spec.Facts
import Mathlib.Tactic.Linarith

/-! # The SIMD kernels compute what the scalar kernels compute -/

namespace Verif.Model
open Verif Verif.Spec
attribute [-simp] BitVec.getLsbD_eq_getElem

theorem within_bind {A R α β : Type} {F : A → Prop} {p : Prog A R α} {f : α → Prog A R β}
    (hp : p.Within F) (hf : ∀ a, (f a).Within F) : (p >>= f).Within F := by
  induction p with
  | pure a => exact hf a
  | read a k ih => exact ⟨hp.1, fun v => ih v (hp.2 v)⟩
  | write a v k ih => exact ⟨hp.1, ih hp.2⟩

section generic
variable {R F : Type} [Cplx R F] [Zero F] [Add F] [Mul F] [Neg F]

/-- the scalar lanes read from memory `m` -/
def laneData (m : U64 → R) (a : U64) (L : Nat) : Simd F := fun lane =>
  if lane < 2 * L then (if lane % 2 = 0 then Cplx.re (m (a + BitVec.ofNat 64 (lane / 2)))
    else Cplx.im (m (a + BitVec.ofNat 64 (lane / 2)))) else 0

theorem exec_loadAligned {α : Type} (L : Nat) (a : U64) (f : Simd F → Prog U64 R α) (m : U64 → R) :
    (loadAligned L a >>= f).exec m = (f (laneData m a L)).exec m := by
  induction L generalizing f with
  | zero =>
    have : laneData m a 0 = fun _ => 0 := by funext lane; simp [laneData]
    rw [this]; rfl
  | succ L ih =>
    have key : (loadAligned (L + 1) a >>= f) = (loadAligned L a >>= fun d =>
        (Prog.read (a + BitVec.ofNat 64 L) fun z =>
          f (fun lane => if lane = 2 * L then Cplx.re z else if lane = 2 * L + 1 then Cplx.im z else d lane))) := by
      have assoc : ∀ {α β γ : Type} (p : Prog U64 R α) (g : α → Prog U64 R β) (h : β → Prog U64 R γ),
          ((p >>= g) >>= h) = (p >>= fun x => g x >>= h) := by
        intro α β γ p g h
        induction p with
        | pure a => rfl
        | read a k ih => exact congrArg (Prog.read a) (funext fun v => ih v)
        | write a v k ih => exact congrArg (Prog.write a v) ih
      show ((loadAligned L a >>= _) >>= f) = _
      rw [assoc]; rfl
    rw [key, ih]
    simp only [Prog.exec]
    congr 2
    funext lane
    unfold laneData
    by_cases h1 : lane = 2 * L
    · subst h1; simp
    · by_cases h2 : lane = 2 * L + 1
      · subst h2
        have : (2 * L + 1) / 2 = L := by omega
        have h3 : 2 * L + 1 < 2 * (L + 1) := by omega
        simp [this, h3]
      · have : (lane < 2 * (L + 1)) ↔ lane < 2 * L := by omega
        simp [h1, h2, this]

theorem within_loadAligned {A : U64 → Prop} (L : Nat) (a : U64) (h : ∀ k, k < L → A (a + BitVec.ofNat 64 k)) :
    (loadAligned (R := R) L a).Within A := by
  induction L with
  | zero => trivial
  | succ L ih =>
    refine within_bind (ih fun k hk => h k (by omega)) fun d => ?_
    exact ⟨h L (by omega), fun _ => trivial⟩

theorem within_storeAligned {A : U64 → Prop} (d : Simd F) (L : Nat) (a : U64)
    (h : ∀ k, k < L → A (a + BitVec.ofNat 64 k)) : (storeAligned (R := R) d L a).Within A := by
  induction L with
  | zero => trivial
  | succ L ih =>
    refine within_bind (ih fun k hk => h k (by omega)) fun _ => ?_
    exact ⟨h L (by omega), trivial⟩

theorem exec_bind {A R α β : Type} [DecidableEq A] (p : Prog A R α) (q : Prog A R β) (m : A → R) :
    (p >>= fun _ => q).exec m = q.exec (p.exec m) := by
  induction p generalizing m with
  | pure a => rfl
  | read a k ih => exact ih _ _
  | write a v k ih => exact ih _

theorem exec_storeAligned (d : Simd F) (L : Nat) (a : U64) (m : U64 → R) (hL : L ≤ 2 ^ 64) :
    (∀ k, k < L → (storeAligned d L a).exec m (a + BitVec.ofNat 64 k) = Cplx.ofParts (d (2 * k)) (d (2 * k + 1))) ∧
    (∀ j, (∀ k, k < L → j ≠ a + BitVec.ofNat 64 k) → (storeAligned d L a).exec m j = m j) := by
  induction L with
  | zero => exact ⟨fun k hk => absurd hk (by omega), fun j _ => rfl⟩
  | succ L ih =>
    obtain ⟨ih1, ih2⟩ := ih (by omega)
    have hex : (storeAligned d (L + 1) a).exec m = Function.update ((storeAligned d L a).exec m)
        (a + BitVec.ofNat 64 L) (Cplx.ofParts (d (2 * L)) (d (2 * L + 1))) := by
      show (storeAligned d L a >>= fun _ => _).exec m = _
      rw [exec_bind]; rfl
    rw [hex]
    constructor
    · intro k hk
      by_cases hkL : k = L
      · subst hkL; simp
      · have hne : a + BitVec.ofNat 64 k ≠ a + BitVec.ofNat 64 L := by
          intro e
          have e2 : BitVec.ofNat 64 k = BitVec.ofNat 64 L := by
            have := congrArg (fun x => x - a) e
            simpa [BitVec.add_comm a, BitVec.add_sub_cancel] using this
          have := congrArg BitVec.toNat e2
          rw [BitVec.toNat_ofNat, BitVec.toNat_ofNat, Nat.mod_eq_of_lt (by omega), Nat.mod_eq_of_lt (by omega)] at this
          exact hkL this
        rw [Function.update_of_ne hne]
        exact ih1 k (by omega)
    · intro j hj
      rw [Function.update_of_ne (hj L (by omega))]
      exact ih2 j fun k hk => hj k (by omega)

/-- the product computed by one pair of lanes -/
def laneMul (z x : R) : R :=
  Cplx.ofParts (Cplx.re z * Cplx.re x + Cplx.im z * -Cplx.im x) (Cplx.re z * Cplx.im x + Cplx.im z * Cplx.re x)

/-- the sum computed by one pair of lanes -/
def laneAdd (x y : R) : R := Cplx.ofParts (Cplx.re x + Cplx.re y) (Cplx.im x + Cplx.im y)

theorem coefMul_lane (z : R) (m : U64 → R) (a : U64) {L k : Nat} (hk : k < L) :
    coefMul z (laneData m a L) (2 * k) = Cplx.re (laneMul z (m (a + BitVec.ofNat 64 k))) ∧
    coefMul z (laneData m a L) (2 * k + 1) = Cplx.im (laneMul z (m (a + BitVec.ofNat 64 k))) := by
  have e1 : 2 * k ^^^ 1 = 2 * k + 1 := by
    apply Nat.eq_of_testBit_eq
    rintro (_ | i)
    · simp
    · have h1 : 2 * k / 2 = k := by omega
      have h2 : (2 * k + 1) / 2 = k := by omega
      rw [Nat.testBit_xor, Nat.testBit_succ, Nat.testBit_succ, Nat.testBit_succ, h1, h2]; simp
  have e2 : (2 * k + 1) ^^^ 1 = 2 * k := by
    rw [← e1, Nat.xor_assoc]; simp
  have e3 : (2 * k) &&& 1 = 0 := by rw [Nat.and_one_is_mod]; omega
  have e4 : (2 * k + 1) &&& 1 = 1 := by rw [Nat.and_one_is_mod]; omega
  have e5 : (2 * k + 1) / 2 = k := by omega
  have e6 : 2 * k / 2 = k := by omega
  have e7 : 2 * k + 1 < 2 * L := by omega
  have e8 : 2 * k < 2 * L := by omega
  have e9 : (2 * k + 1) % 2 = 1 := by omega
  unfold coefMul multiplyByI laneData laneMul
  rw [Cplx.re_ofParts, Cplx.im_ofParts]
  constructor
  · simp only [e1, e3, e5, e6, e7, e8, e9, if_true]; simp
  · simp only [e2, e4, e5, e6, e7, e8, e9, if_true]; simp

theorem coefMul_eq (z : R) (m : U64 → R) (a : U64) {L k : Nat} (hk : k < L) :
    (Cplx.ofParts (coefMul z (laneData m a L) (2 * k)) (coefMul z (laneData m a L) (2 * k + 1)) : R) =
      laneMul z (m (a + BitVec.ofNat 64 k)) := by
  obtain ⟨h1, h2⟩ := coefMul_lane z m a hk
  rw [h1, h2]
  simp [laneMul, Cplx.re_ofParts, Cplx.im_ofParts]

theorem simdAdd_eq (z w : R) (m : U64 → R) (a b : U64) {L k : Nat} (hk : k < L) :
    (Cplx.ofParts (simdAdd (coefMul z (laneData m a L)) (coefMul w (laneData m b L)) (2 * k))
      (simdAdd (coefMul z (laneData m a L)) (coefMul w (laneData m b L)) (2 * k + 1)) : R) =
      laneAdd (laneMul z (m (a + BitVec.ofNat 64 k))) (laneMul w (m (b + BitVec.ofNat 64 k))) := by
  obtain ⟨h1, h2⟩ := coefMul_lane z m a hk
  obtain ⟨h3, h4⟩ := coefMul_lane w m b hk
  unfold simdAdd laneAdd
  rw [h1, h2, h3, h4]

end generic

theorem laneMul_eq (z x : ℂ) : laneMul z x = z * x := by
  apply Complex.ext
  · simp [laneMul]; ring
  · simp [laneMul]

theorem laneAdd_eq (x y : ℂ) : laneAdd x y = x + y := by
  apply Complex.ext <;> simp [laneAdd]

/-- `c & (lanes - 1) == 0` says the mask has no lane bits -/
theorem lane_bits_clear {c : U64} {l : Nat} (hl : l < 64) (h : c &&& (BitVec.ofNat 64 (2 ^ l) - 1) = 0) :
    ∀ i, i < l → c.getLsbD i = false := by
  intro i hi
  have e : BitVec.ofNat 64 (2 ^ l) - 1 = lowMask l := by
    unfold lowMask
    congr 1
    exact (isBit_ofNat hl).eq ▸ (IsBit.eq ⟨hl, fun i => (by
      rw [BitVec.getLsbD_shiftLeft, BitVec.getLsbD_one]
      by_cases h1 : i = l
      · subst h1; simp [hl]
      · by_cases h2 : i < l
        · simp [h1, h2]
        · have : i - l ≠ 0 := by omega
          simp [h1, this])⟩).symm
  have := bit_and_eq h i
  rw [e, getLsbD_low hl] at this
  simpa [hi] using this

/-- the lane bits are inside the register -/
theorem lanes_fit {M : U64} {n l : Nat} (hspan : 2 ^ n >>> popcount M ≥ 2 ^ l) : l ≤ n := by
  by_contra hlt
  rw [Nat.shiftRight_eq_div_pow] at hspan
  have : 2 ^ n / 2 ^ popcount M ≤ 2 ^ n := Nat.div_le_self _ _
  have h2 : 2 ^ n < 2 ^ l := Nat.pow_lt_pow_right (by omega) (by omega)
  omega

/-- masks with the lane bits added are still well formed -/
theorem masksOK_lanes {B n l : Nat} {t c v : U64} (h : MasksOK B n t c v) (hl : l < 64) (hln : l ≤ n)
    (hlow : ∀ i, i < l → (t ||| c).getLsbD i = false) : MasksOK B n (t ||| lowMask l) c v := by
  refine ⟨h.size, ?_, ?_, h.sub⟩
  · rw [toNat_lt_two_pow_iff]
    intro i hi
    rw [BitVec.getLsbD_or, BitVec.getLsbD_or, h.t_high hi, h.c_high hi, getLsbD_low hl]
    simp; omega
  · intro i
    rw [BitVec.getLsbD_or, getLsbD_low hl]
    have := h.disj i
    by_cases hi : i < l
    · have h2 := hlow i hi
      rw [BitVec.getLsbD_or] at h2
      simp_all
    · simp [hi, this]

/-- adding lane `k` commutes with setting a bit outside the lane bits -/
theorem lane_or {b t : U64} {q l k : Nat} (hl : l < 64) (ht : IsBit t q) (hlq : l ≤ q)
    (hb : ∀ i, i < l → b.getLsbD i = false) (hk : k < 2 ^ l) :
    (b ||| t) + BitVec.ofNat 64 k = (b + BitVec.ofNat 64 k) ||| t := by
  have hbt : ∀ i, i < l → (b ||| t).getLsbD i = false := by
    intro i hi
    rw [getLsbD_or_bit ht, hb i hi]; simp; omega
  apply U64.ext; intro i _
  rw [getLsbD_add_lane hl hbt hk, getLsbD_or_bit ht, getLsbD_or_bit ht, getLsbD_add_lane hl hb hk]
  by_cases h : i < l
  · have : i ≠ q := by omega
    simp [h, this]
  · simp [h]

/-- members of a block with lane bits: a lane of a member of the block without them -/
theorem inBlock_lane {b t j : U64} {l : Nat} (hl : l < 64)
    (hb : ∀ i, i < l → b.getLsbD i = false) (hj : InBlock (t ||| lowMask l) b j) :
    ∃ k, k < 2 ^ l ∧ InBlock t (b + BitVec.ofNat 64 k) j := by
  refine ⟨j.toNat % 2 ^ l, Nat.mod_lt _ (Nat.two_pow_pos l), ?_⟩
  intro i hi ht
  rw [getLsbD_add_lane hl hb (Nat.mod_lt _ (Nat.two_pow_pos l))]
  by_cases h : i < l
  · rw [if_pos h, Nat.testBit_mod_two_pow, BitVec.testBit_toNat]; simp [h]
  · rw [if_neg h]
    exact hj i hi (by rw [BitVec.getLsbD_or, ht, getLsbD_low hl]; simp [h])

theorem add_lane_inj {b : U64} {l k k' : Nat} (hl : l < 64) (hk : k < 2 ^ l) (hk' : k' < 2 ^ l)
    (e : b + BitVec.ofNat 64 k = b + BitVec.ofNat 64 k') : k = k' := by
  have h64 : 2 ^ l < 2 ^ 64 := Nat.pow_lt_pow_right (by omega) hl
  have e2 : BitVec.ofNat 64 k = BitVec.ofNat 64 k' := by
    have := congrArg (fun x => x - b) e
    simpa [BitVec.add_comm b, BitVec.add_sub_cancel] using this
  have := congrArg BitVec.toNat e2
  rwa [BitVec.toNat_ofNat, BitVec.toNat_ofNat, Nat.mod_eq_of_lt (by omega), Nat.mod_eq_of_lt (by omega)] at this

section generic
variable {R F : Type} [Cplx R F] [Zero F] [Add F] [Mul F] [Neg F]

/-- **SIMD one-target kernel**, for numbers of any kind: the new amplitudes are computed lane by lane. -/
theorem dense1Simd_runs {B n q l : Nat} {t c v : U64} (h : MasksOK B n t c v) (hq : IsBit t q)
    (hl : l < 64) (hln : l ≤ n) (hlow : ∀ i, i < l → (t ||| c).getLsbD i = false)
    (M : M22 R) (m m' : U64 → R)
    (hm' : ∀ j, m' j = if InState (B * 2 ^ n) j ∧ j &&& c = v then
        (if j.getLsbD q then laneAdd (laneMul M.m10 (m (j &&& ~~~t))) (laneMul M.m11 (m j))
          else laneAdd (laneMul M.m00 (m j)) (laneMul M.m01 (m (j ||| t)))) else m j) :
    Runs (InState (B * 2 ^ n)) (dense1Simd (2 ^ l) t c v M (B * 2 ^ n)) m m' := by
  have h64 : 2 ^ l ≤ 2 ^ 64 := Nat.pow_le_pow_right (by omega) (by omega)
  have hok := masksOK_lanes h hl hln hlow
  have tlow : ∀ i, i < l → t.getLsbD i = false := fun i hi => by
    have := hlow i hi; rw [BitVec.getLsbD_or] at this; simp_all
  have hlq : l ≤ q := by
    by_contra hlt
    have := tlow q (by omega)
    rw [hq.2] at this; simp at this
  let body : U64 → Prog U64 R Unit := fun basis0 => do
    let v0 ← loadAligned (2 ^ l) basis0
    let v1 ← loadAligned (2 ^ l) (basis0 ||| t)
    storeAligned (simdAdd (coefMul M.m00 v0) (coefMul M.m01 v1)) (2 ^ l) basis0
    storeAligned (simdAdd (coefMul M.m10 v0) (coefMul M.m11 v1)) (2 ^ l) (basis0 ||| t)
  have hmask : t ||| lowMask l ||| c = t ||| c ||| lowMask l := by
    rw [BitVec.or_assoc, BitVec.or_comm (lowMask l), BitVec.or_assoc]
  have main := maskKernel_runs hok body m m' ?_ ?_ ?_
  · have hN := workItems_lanes (dim := B * 2 ^ n) hl hlow
    have hpool : dense1Simd (2 ^ l) t c v M (B * 2 ^ n) = parallelFor _ fun g =>
        body (insertZero g (t ||| lowMask l ||| c) ||| v) := by
      unfold dense1Simd
      congr 1
      funext g
      simp only [insertZero_lanes g (t ||| c) hl hlow, hmask, body]
    rw [hpool]
    rw [hmask, ← hN] at main
    rw [hmask]
    exact main
  · intro b hb
    have hblow : ∀ i, i < l → b.getLsbD i = false := fun i hi =>
      hb.target i (by rw [BitVec.getLsbD_or, getLsbD_low hl]; simp [hi])
    have f0 : ∀ k, k < 2 ^ l → InBlock (t ||| lowMask l) b (b + BitVec.ofNat 64 k) := by
      intro k hk i hi ht
      rw [BitVec.getLsbD_or, getLsbD_low hl] at ht
      rw [getLsbD_add_lane hl hblow hk]
      simp at ht; simp; omega
    have f1 : ∀ k, k < 2 ^ l → InBlock (t ||| lowMask l) b ((b ||| t) + BitVec.ofNat 64 k) := by
      intro k hk i hi ht
      rw [lane_or hl hq hlq hblow hk, BitVec.getLsbD_or, f0 k hk i hi ht]
      rw [BitVec.getLsbD_or] at ht
      simp at ht; simp [ht.1]
    exact within_bind (within_loadAligned _ _ f0) fun _ => within_bind (within_loadAligned _ _ f1) fun _ =>
      within_bind (within_storeAligned _ _ _ f0) fun _ => within_storeAligned _ _ _ f1
  · intro b j hb hj
    have hblow : ∀ i, i < l → b.getLsbD i = false := fun i hi =>
      hb.target i (by rw [BitVec.getLsbD_or, getLsbD_low hl]; simp [hi])
    have hbq : b.getLsbD q = false := hb.target q (by rw [BitVec.getLsbD_or, hq.2]; simp)
    obtain ⟨k, hk, hjk⟩ := inBlock_lane hl hblow hj
    have hmem := inBlock_mem hok hb hj
    have hbkq : (b + BitVec.ofNat 64 k).getLsbD q = false := by
      rw [getLsbD_add_lane hl hblow hk, if_neg (by omega), hbq]
    have hex : (body b).exec m =
        (storeAligned (simdAdd (coefMul M.m10 (laneData m b (2 ^ l))) (coefMul M.m11 (laneData m (b ||| t) (2 ^ l))))
          (2 ^ l) (b ||| t)).exec
        ((storeAligned (simdAdd (coefMul M.m00 (laneData m b (2 ^ l))) (coefMul M.m01 (laneData m (b ||| t) (2 ^ l))))
          (2 ^ l) b).exec m) := by
      show (loadAligned (2 ^ l) b >>= _).exec m = _
      rw [exec_loadAligned]
      show (loadAligned (2 ^ l) (b ||| t) >>= _).exec m = _
      rw [exec_loadAligned]
      exact exec_bind _ _ _
    rw [hex, hm' j, if_pos hmem]
    obtain ⟨s1, s2⟩ := exec_storeAligned (simdAdd (coefMul M.m00 (laneData m b (2 ^ l)))
      (coefMul M.m01 (laneData m (b ||| t) (2 ^ l)))) (2 ^ l) b m h64
    rcases (inBlock_one hq hbkq).1 hjk with ⟨rfl, e⟩ | ⟨hjeq, e⟩
    · rw [(exec_storeAligned _ _ _ _ h64).2, s1 k hk, simdAdd_eq _ _ _ _ _ hk, if_neg (by simp [e]),
        ← lane_or hl hq hlq hblow hk]
      · intro k' hk' e'
        have := congrArg (fun x => BitVec.getLsbD x q) e'
        simp only [hbkq, lane_or hl hq hlq hblow hk', getLsbD_or_bit hq] at this
        simp at this
    · have e2 : j &&& ~~~t = b + BitVec.ofNat 64 k := by
        apply U64.ext; intro i hi
        rw [hjeq, BitVec.getLsbD_and, BitVec.getLsbD_not, getLsbD_or_bit hq, hq.2]
        by_cases hi' : i = q
        · subst hi'; simp [hbkq]
        · simp [hi', hi]
      rw [if_pos e, e2]
      have e3 : j = (b ||| t) + BitVec.ofNat 64 k := by rw [lane_or hl hq hlq hblow hk, hjeq]
      rw [e3, (exec_storeAligned _ _ _ _ h64).1 k hk, simdAdd_eq _ _ _ _ _ hk]
  · intro j hj
    rw [hm' j, if_neg hj]

/-- **SIMD zero-target kernel**, for numbers of any kind. -/
theorem zeroTargetSimd_runs {B n l : Nat} {c v : U64} (h : MasksOK B n 0 c v)
    (hl : l < 64) (hln : l ≤ n) (hlow : ∀ i, i < l → c.getLsbD i = false)
    (z : R) (m m' : U64 → R)
    (hm' : ∀ j, m' j = if InState (B * 2 ^ n) j ∧ j &&& c = v then laneMul z (m j) else m j) :
    Runs (InState (B * 2 ^ n)) (zeroTargetSimd (2 ^ l) c v z (B * 2 ^ n)) m m' := by
  have h64 : 2 ^ l ≤ 2 ^ 64 := Nat.pow_le_pow_right (by omega) (by omega)
  have hok := masksOK_lanes h hl hln (by intro i hi; rw [BitVec.getLsbD_or, hlow i hi]; simp)
  let body : U64 → Prog U64 R Unit := fun basis => do
    let d ← loadAligned (2 ^ l) basis
    storeAligned (coefMul z d) (2 ^ l) basis
  have hmask : 0 ||| lowMask l ||| c = c ||| lowMask l := by
    rw [BitVec.or_comm]; simp
  have main := maskKernel_runs hok body m m' ?_ ?_ ?_
  · have hN := workItems_lanes (dim := B * 2 ^ n) hl hlow
    have hpool : zeroTargetSimd (2 ^ l) c v z (B * 2 ^ n) = parallelFor _ fun g =>
        body (insertZero g (0 ||| lowMask l ||| c) ||| v) := by
      unfold zeroTargetSimd
      congr 1
      funext g
      simp only [insertZero_lanes g c hl hlow, hmask, body]
    rw [hpool]
    rw [hmask, ← hN] at main
    rw [hmask]
    exact main
  · intro b hb
    have hblow : ∀ i, i < l → b.getLsbD i = false := fun i hi =>
      hb.target i (by rw [BitVec.getLsbD_or, getLsbD_low hl]; simp [hi])
    have f0 : ∀ k, k < 2 ^ l → InBlock (0 ||| lowMask l) b (b + BitVec.ofNat 64 k) := by
      intro k hk i hi ht
      rw [BitVec.getLsbD_or, getLsbD_low hl] at ht
      rw [getLsbD_add_lane hl hblow hk]
      simp at ht; simp; omega
    exact within_bind (within_loadAligned _ _ f0) fun _ => within_storeAligned _ _ _ f0
  · intro b j hb hj
    have hblow : ∀ i, i < l → b.getLsbD i = false := fun i hi =>
      hb.target i (by rw [BitVec.getLsbD_or, getLsbD_low hl]; simp [hi])
    obtain ⟨k, hk, hjk⟩ := inBlock_lane hl hblow hj
    obtain rfl : j = b + BitVec.ofNat 64 k := U64.ext fun i hi => hjk i hi (by simp)
    have hmem := inBlock_mem hok hb hj
    rw [hm' _, if_pos hmem]
    show _ = (loadAligned (2 ^ l) b >>= _).exec m _
    rw [exec_loadAligned, (exec_storeAligned _ _ _ _ h64).1 k hk, coefMul_eq _ _ _ hk]
  · intro j hj
    rw [hm' j, if_neg hj]

end generic

/-- **SIMD one-target kernel.** -/
theorem dense1Simd_spec {B n q l : Nat} {t c v : U64} (h : MasksOK B n t c v) (hq : IsBit t q)
    (hl : l < 64) (hln : l ≤ n) (hlow : ∀ i, i < l → (t ||| c).getLsbD i = false)
    (cs : List (Nat × Bool)) (hcs : ∀ j : U64, j &&& c = v ↔ CtrlOK cs j) (M : M22 ℂ) (m : U64 → ℂ) :
    Runs (InState (B * 2 ^ n)) (dense1Simd (2 ^ l) t c v M (B * 2 ^ n)) m
      (onState (B * 2 ^ n) (applyMat [q] (mat2 M.m00 M.m01 M.m10 M.m11) cs) m) := by
  refine dense1Simd_runs h hq hl hln hlow M m _ fun j => ?_
  unfold onState
  by_cases hj : j.toNat < B * 2 ^ n
  · rw [if_pos hj, applyMat_one]
    by_cases hc : j &&& c = v
    · rw [if_pos ((hcs j).1 hc), if_pos ⟨hj, hc⟩]
      have e1 := setBit_self j hq.1
      cases e : j.getLsbD q
      · rw [e] at e1
        rw [e1, ← or_bit_eq hq]
        simp [mat2, laneMul_eq, laneAdd_eq]
      · rw [e] at e1
        have e2 : setBit j q false = j &&& ~~~t := by simp [setBit, hq.eq]
        rw [e1, e2]
        simp [mat2, laneMul_eq, laneAdd_eq]
    · rw [if_neg (fun h => hc ((hcs j).2 h)), if_neg (fun h => hc h.2)]
  · rw [if_neg hj, if_neg (fun h => hj h.1)]

/-- **SIMD zero-target kernel.** -/
theorem zeroTargetSimd_spec {B n l : Nat} {c v : U64} (h : MasksOK B n 0 c v)
    (hl : l < 64) (hln : l ≤ n) (hlow : ∀ i, i < l → c.getLsbD i = false)
    (cs : List (Nat × Bool)) (hcs : ∀ j : U64, j &&& c = v ↔ CtrlOK cs j) (z : ℂ) (m : U64 → ℂ) :
    Runs (InState (B * 2 ^ n)) (zeroTargetSimd (2 ^ l) c v z (B * 2 ^ n)) m
      (onState (B * 2 ^ n) (applyMat [] (fun _ _ => z) cs) m) := by
  refine zeroTargetSimd_runs h hl hln hlow z m _ fun j => ?_
  unfold onState
  by_cases hj : j.toNat < B * 2 ^ n
  · rw [if_pos hj, applyMat_nil]
    by_cases hc : j &&& c = v
    · rw [if_pos ((hcs j).1 hc), if_pos ⟨hj, hc⟩, laneMul_eq]
    · rw [if_neg (fun h => hc ((hcs j).2 h)), if_neg (fun h => hc h.2)]
  · rw [if_neg hj, if_neg (fun h => hj h.1)]

end Verif.Model
