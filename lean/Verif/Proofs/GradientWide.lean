import Verif.Proofs.Gradient
import Verif.Props.Optimize

/-! # States on more qubits than a circuit uses: the other qubits stay in `|0⟩` -/

namespace Verif.Proofs
open Verif Verif.Spec Verif.Model Verif.Props
attribute [-simp] BitVec.getLsbD_eq_getElem

/-- `φN` is the state `φ` of `n` qubits with qubits `n … N - 1` in `|0⟩` -/
def Padded (n N : Nat) (φ φN : U64 → ℂ) : Prop :=
  ∀ j : U64, j.toNat < 2 ^ N → φN j = if j.toNat < 2 ^ n then φ j else 0

theorem padded_applyMat {n N : Nat} (hnN : n ≤ N) {ts : List Nat} (h64 : ∀ q ∈ ts, q < 64) (ht : ∀ q ∈ ts, q < n) (U : Nat → Nat → ℂ)
    (cs : List (Nat × Bool)) {φ φN : U64 → ℂ} (h : Padded n N φ φN) :
    Padded n N (applyMat ts U cs φ) (applyMat ts U cs φN) := by
  intro j hj
  have hle : 2 ^ n ≤ 2 ^ N := Nat.pow_le_pow_right (by norm_num) hnN
  by_cases hjn : j.toNat < 2 ^ n
  · rw [if_pos hjn]
    refine applyMat_local (B := 1) (n := n) h64 ht U _ _ ?_ j (by simpa using hjn)
    intro i hi
    rw [Nat.one_mul] at hi
    rw [h i (by omega), if_pos hi]
  · rw [if_neg hjn]
    unfold applyMat
    split
    · refine Finset.sum_eq_zero fun x _ => ?_
      have hb : ¬ (putBits j ts x).toNat < 2 ^ n := by
        have := (putBits_inState (B := 1) h64 ht j x).not
        rw [Nat.one_mul] at this
        exact this.2 hjn
      have hN : (putBits j ts x).toNat < 2 ^ N := by
        have := putBits_inState (B := 1) (n := N) h64 (fun q hq => lt_of_lt_of_le (ht q hq) hnN) j x
        rw [Nat.one_mul] at this
        exact this.2 hj
      rw [h _ hN, if_neg hb, mul_zero]
    · rw [h j hj, if_neg hjn]

theorem padded_onState {n N : Nat} (hnN : n ≤ N) {F : (U64 → ℂ) → U64 → ℂ} {φ φN : U64 → ℂ} (h : Padded n N (F φ) (F φN)) :
    Padded n N (onState (2 ^ n) F φ) (onState (2 ^ N) F φN) := by
  intro j hj
  rw [onState, if_pos hj, h j hj]
  split
  · next hjn => rw [onState, if_pos hjn]
  · rfl

/-- running a circuit of `n` qubits on a larger register leaves the other qubits in `|0⟩` -/
theorem padded_runLines {ls : List Line} {gs : List Item} (hb : ls.mapM (fun l => l.instr.build) = .ok gs) (hok : ∀ l ∈ ls, l.instr.OK)
    (hp : ∀ l ∈ ls, Line.Plain l) {n N : Nat} (hnN : n ≤ N) (hq : ∀ l ∈ ls, ∀ q ∈ l.instr.qubits, q < n) (θ : String → Option ℝ) {φ φN : U64 → ℂ}
    (h : Padded n N φ φN) : Padded n N (runLines n θ ls φ) (runLines N θ ls φN) := by
  induction ls generalizing gs φ φN with
  | nil => exact h
  | cons l ls ih =>
    rw [List.mapM_cons] at hb
    obtain ⟨g, hg, hb⟩ := bind_ok hb
    obtain ⟨gs1, hb1, hb⟩ := bind_ok hb
    refine ih hb1 (fun l hl => hok l (List.mem_cons_of_mem _ hl)) (fun l hl => hp l (List.mem_cons_of_mem _ hl))
      (fun l hl => hq l (List.mem_cons_of_mem _ hl)) ?_
    have hokl := hok l List.mem_cons_self
    have hpl := (hp l List.mem_cons_self).2
    have hql := hq l List.mem_cons_self
    have key : ∀ (d : GateDesc) (u : UGate), DescOK d → d.build = .ok u → (∀ q ∈ qubitsOf d, q < n) →
        Padded n N (operatorOf d φ) (operatorOf d φN) := by
      intro d u hd hu hq
      obtain ⟨hv, ho, hs⟩ := build_valid hd hu
      rw [← ho]
      exact padded_applyMat hnN (valid_targetsOK u).lt (build_bounds hs hq).1 _ _ h
    apply padded_onState hnN
    obtain ⟨ins, c⟩ := l
    cases ins with
    | gate d =>
      obtain ⟨u, hu, -⟩ := bind_ok (show (do let g ← d.build; pure (Sum.inl (Gate.det g))) = .ok g from hg)
      exact key d u hokl hu hql
    | rot r k =>
      obtain ⟨p, hp, -⟩ := bind_ok (show (do let p ← r.build; pure (Sum.inr (PGate.rot p, k))) = .ok g from hg)
      unfold Line.operator
      dsimp only
      cases θ k with
      | none => exact h
      | some t => exact key _ _ (rot_descOK r t) (rot_build hp t) (by rw [rot_qubits]; exact hql)
    | choice => exact hpl.elim
    | measure => exact hpl.elim
    | pchoice => exact hpl.elim

/-- the part of a Pauli operator on the first `n` qubits (its coefficient is kept) -/
def cutPauli (n : Nat) (p : PauliOp) : PauliOp := ⟨p.coef, p.x, p.z &&& BitVec.ofNat 64 (2 ^ n - 1)⟩

theorem bit_high {n : Nat} {j : U64} (hj : j.toNat < 2 ^ n) {q : Nat} (hq : n ≤ q) : j.getLsbD q = false := by
  unfold BitVec.getLsbD
  exact Nat.testBit_lt_two_pow (lt_of_lt_of_le hj (Nat.pow_le_pow_right (by norm_num) hq))

theorem bit_lowMask {n q : Nat} (hn : n < 64) : (BitVec.ofNat 64 (2 ^ n - 1)).getLsbD q = decide (q < n) := by
  have h1 : 2 ^ n < 2 ^ 64 := Nat.pow_lt_pow_right (by norm_num) hn
  unfold BitVec.getLsbD
  rw [BitVec.toNat_ofNat, Nat.mod_eq_of_lt (by omega), Nat.testBit_two_pow_sub_one]

theorem and_cut {n : Nat} (hn : n < 64) {j : U64} (hj : j.toNat < 2 ^ n) (z : U64) : j &&& (z &&& BitVec.ofNat 64 (2 ^ n - 1)) = j &&& z := by
  apply U64.ext; intro q _
  rw [BitVec.getLsbD_and, BitVec.getLsbD_and, BitVec.getLsbD_and, bit_lowMask hn]
  by_cases hq : q < n
  · simp [hq]
  · rw [bit_high hj (by omega)]; simp

theorem xor_small {n : Nat} {a b : U64} (ha : a.toNat < 2 ^ n) (hb : b.toNat < 2 ^ n) : (a ^^^ b).toNat < 2 ^ n := by
  rw [BitVec.toNat_xor]; exact Nat.xor_lt_two_pow ha hb

/-- on indices of `n` qubits, with flips of these qubits only, the phases of further qubits (in `|0⟩`) do not matter -/
theorem pauliAct_cut {n N : Nat} (hn : n < 64) (hnN : n ≤ N) {p : PauliOp} (hx : p.x.toNat < 2 ^ n) {φ φN : U64 → ℂ} (h : Padded n N φ φN) {j : U64}
    (hj : j.toNat < 2 ^ n) : PauliAct p φN j = PauliAct (cutPauli n p) φ j := by
  have hle : 2 ^ n ≤ 2 ^ N := Nat.pow_le_pow_right (by norm_num) hnN
  have hxj := xor_small hj hx
  unfold PauliAct cutPauli pauliAct pauliExp
  dsimp only
  rw [and_cut hn hx, and_cut hn hj, h _ (by omega), if_pos hxj]

theorem opAct_cut {n N : Nat} (hn : n < 64) (hnN : n ≤ N) {ts : List PauliOp} (hx : ∀ p ∈ ts, p.x.toNat < 2 ^ n) {φ φN : U64 → ℂ} (h : Padded n N φ φN)
    {j : U64} (hj : j.toNat < 2 ^ n) : OpAct ts φN j = OpAct (ts.map (cutPauli n)) φ j := by
  unfold OpAct
  rw [List.map_map]
  congr 1
  exact List.map_congr_left fun p hp => pauliAct_cut hn hnN (hx p hp) h hj

theorem inner_padded {n N : Nat} (hnN : n ≤ N) (hN : N ≤ 64) {φ φN χ χN : U64 → ℂ} (h : Padded n N φ φN) (hχ : ∀ j : U64, j.toNat < 2 ^ n → χN j = χ j) :
    Spec.inner (2 ^ N) φN χN = Spec.inner (2 ^ n) φ χ := by
  have hle : 2 ^ n ≤ 2 ^ N := Nat.pow_le_pow_right (by norm_num) hnN
  have hBN : 2 ^ N ≤ 2 ^ 64 := Nat.pow_le_pow_right (by norm_num) hN
  unfold Spec.inner
  symm
  have hsub : indices (2 ^ n) ⊆ indices (2 ^ N) := by
    intro j hj
    rw [mem_indices (by omega)] at hj ⊢
    omega
  rw [← Finset.sum_subset hsub]
  · refine Finset.sum_congr rfl fun j hj => ?_
    rw [mem_indices (by omega)] at hj
    rw [h j (by omega), if_pos hj, hχ j hj]
  · intro j hj hj'
    rw [mem_indices (by omega)] at hj hj'
    rw [h j hj, if_neg hj', map_zero, zero_mul]

end Verif.Proofs
