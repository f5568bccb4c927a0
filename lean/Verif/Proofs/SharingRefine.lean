import Verif.Proofs.SharingGate

/-! # Programs on memory refine programs on cells -/

namespace Verif.Proofs
open Verif Verif.Model Verif.Spec

attribute [-simp] BitVec.getLsbD_eq_getElem

variable {L ms : Nat} {junk : Nat → Nat → ℂ} {w : World} {s : Store} {ρ : Nat → Addr}

theorem basisState_zero {k n : Nat} (hk : k < 2 ^ n) (j : U64) (hj : ¬ j.toNat < 2 ^ n) : basisState k j = 0 := if_neg (by omega)

theorem basisState_ofNat {i k n : Nat} (hn : n < 64) (hi : i < 2 ^ n) : (if i = k then 1 else 0 : ℂ) = basisState k (BitVec.ofNat 64 i) := by
  unfold basisState
  rw [toNat_ofNat_small (lt_trans hi (Nat.pow_lt_pow_right (by decide) hn))]

/-- the gates that the factories accept -/
def AcceptedGate (d : GateDesc) : Prop := DescOK d ∧ ∃ g, d.build = .ok g

/-- one command: what the specification says, with the gates that rebind named -/
theorem step_refines (hL : LanesOK L) (R : Pictures ms w s ρ) (c : Cmd) :
    match s.step ⟨AcceptedGate, fun d => ¬ SmallMatrix d⟩ c with
    | .done s' => Done ms (fun w' f => w.Exec L ms junk c w' f) s'
    | .refused => Refused w (fun w' f => w.Exec L ms junk c w' f)
    | .unspecified => True := by
  cases c with
  | newVec x n =>
    simp only [Store.step, World.Exec]
    by_cases h : n < 64
    · simp only [if_pos h]
      refine newVec_done R x h _ _ _ (basisState_zero (Nat.two_pow_pos n)) (fun i => within2_store rfl) fun m _ i => ?_
      exact (exec_store _ _ _).trans (basisState_ofNat h i.2)
    · simp only [if_neg h]
  | shareVec x y =>
    simp only [Store.step, World.Exec]
    cases hy : s.vec y with
    | none => trivial
    | some c =>
      simp only [R.vec_some hy]
      exact ⟨_, _, shareVec_done R x (R.used y c hy), fun _ _ => Iff.rfl⟩
  | copyVec x y =>
    simp only [Store.step, World.Exec]
    cases hy : s.vec y with
    | none => trivial
    | some c =>
      have hc := R.used y c hy
      simp only [R.vec_some hy]
      refine newVec_done R x (R.heap.small c hc) _ _ _ (R.heap.zero c hc) (fun i => ?_) fun m hm i => ?_
      · exact within2_load_store (g := id) (Or.inr ⟨R.heap.valid hc i.2, vecAt_mem i.2⟩) rfl
      · refine (exec_load_store (place (ρ c) i) _ id m).trans ?_
        show m (place (ρ c) i) = _
        rw [hm _ (R.heap.valid hc i.2)]
        exact R.heap.vals c hc i i.2
  | loadVec x y =>
    simp only [Store.step, World.Exec]
    cases hx : s.vec x with
    | none => trivial
    | some c =>
      cases hy : s.vec y with
      | none => trivial
      | some d =>
        have hc := R.used x c hx
        have hd := R.used y d hy
        simp only [R.vec_some hx, R.vec_some hy]
        by_cases e : s.qubits c = s.qubits d
        · simp only [if_pos e]
          have e' : ¬ (vecAt s ρ d).dim ≠ (vecAt s ρ c).dim := by simp [vecAt, e]
          simp only [if_neg e']
          exact copyVecK_done R hc hd e.symm _ _ ⟨rfl, fun i => rfl⟩ (fun i => rfl) _ (fun i hi => Or.inl (vecAt_mem hi))
            (fun i hi => Or.inr (vecAt_mem (e ▸ hi)))
        · simp only [if_neg e]
          have e' : (vecAt s ρ d).dim ≠ (vecAt s ρ c).dim := fun h => e (Nat.pow_right_injective (le_refl 2) h).symm
          simp only [if_pos e']
          exact refused_throws w _
  | loadList x amps =>
    simp only [Store.step, World.Exec]
    cases hx : s.vec x with
    | none => trivial
    | some c =>
      have hc := R.used x c hx
      simp only [R.vec_some hx]
      by_cases e : amps.length = 2 ^ s.qubits c
      · have e' : ¬ amps.length ≠ (vecAt s ρ c).dim := fun h => h e
        simp only [if_pos e, if_neg e']
        exact loadVecK_done R hc amps e
      · have e' : amps.length ≠ (vecAt s ρ c).dim := e
        simp only [if_neg e, if_pos e']
        exact refused_throws w _
  | setAmp x i a =>
    simp only [Store.step, World.Exec]
    cases hx : s.vec x with
    | none => trivial
    | some c =>
      have hc := R.used x c hx
      simp only [R.vec_some hx]
      by_cases e : i < 2 ^ s.qubits c
      · have e' : i < (vecAt s ρ c).dim := e
        simp only [if_pos e, if_pos e']
        exact setAmp_done R hc e a
      · simp only [if_neg e]
  | setBasis x k =>
    simp only [Store.step, World.Exec]
    cases hx : s.vec x with
    | none => trivial
    | some c =>
      have hc := R.used x c hx
      simp only [R.vec_some hx]
      by_cases e : k < 2 ^ s.qubits c
      · have e' : ¬ k ≥ (vecAt s ρ c).dim := Nat.not_le.mpr e
        simp only [if_pos e, if_neg e']
        exact fillVec_done R hc _ _ (basisState_zero e) fun i hi => basisState_ofNat (R.heap.small c hc) hi
      · have e' : k ≥ (vecAt s ρ c).dim := Nat.not_lt.mp e
        simp only [if_neg e, if_pos e']
        exact refused_throws w _
  | setZeroNorm x =>
    simp only [Store.step, World.Exec]
    cases hx : s.vec x with
    | none => trivial
    | some c =>
      simp only [R.vec_some hx]
      exact fillVec_done R (R.used x c hx) _ _ (fun _ _ => rfl) fun _ _ => rfl
  | mulCoef x a =>
    simp only [Store.step, World.Exec]
    cases hx : s.vec x with
    | none => trivial
    | some c =>
      simp only [R.vec_some hx]
      exact scaleVec_done R (R.used x c hx) a
  | addCoef x a y =>
    simp only [Store.step, World.Exec]
    cases hx : s.vec x with
    | none => trivial
    | some c =>
      cases hy : s.vec y with
      | none => trivial
      | some d =>
        simp only [R.vec_some hx, R.vec_some hy]
        by_cases e : s.qubits c = s.qubits d
        · simp only [if_pos e]
          exact axpyVec_done R (R.used x c hx) (R.used y d hy) e.symm a
        · simp only [if_neg e]
  | gate x d =>
    simp only [Store.step, World.Exec]
    cases hx : s.vec x with
    | none => trivial
    | some c =>
      simp only [R.vec_some hx]
      by_cases e : AcceptedGate d ∧ ∀ q ∈ qubitsOf d, q < s.qubits c
      · obtain ⟨⟨hd, g, hg⟩, hq⟩ := e
        have h := gateVec_done (junk := junk) R hL (x := x) (R.used x c hx) hd hg hq
        rw [if_pos ⟨⟨hd, g, hg⟩, hq⟩]
        by_cases hs : SmallMatrix d
        · simp only [not_true_eq_false, hs, if_false]
          exact h.1 hs
        · simp only [hs, not_false_eq_true, if_true]
          exact h.2 hs
      · simp only [if_neg e]
  | newBatch X B n =>
    simp only [Store.step, World.Exec]
    by_cases h : n < 64 ∧ B * 2 ^ n ≤ 2 ^ 64
    · simp only [if_pos h]
      refine newBat_done R X h.1 h.2 _ _ _ (fun b _ => basisState_zero (Nat.two_pow_pos n)) ?_ ?_
      · rintro Y rfl k; exact within2_store rfl
      · rintro Y rfl m hm k; exact (exec_store _ _ _).trans (basisState_ofNat h.1 k.2.2)
    · simp only [if_neg h]
  | shareBatch X Y =>
    simp only [Store.step, World.Exec]
    cases hY : s.bat Y with
    | none => trivial
    | some p =>
      obtain ⟨n, cs⟩ := p
      obtain ⟨v, hv, hb⟩ := R.bat Y n cs hY
      simp only [hv]
      exact ⟨_, _, shareBatch_done R X hb, fun _ _ => Iff.rfl⟩
  | copyBatch X Y =>
    simp only [Store.step, World.Exec]
    cases hY : s.bat Y with
    | none => trivial
    | some p =>
      obtain ⟨n, cs⟩ := p
      obtain ⟨v, hv, hb⟩ := R.bat Y n cs hY
      simp only [hv, hb.size, hb.qubits]
      refine newBat_done R X hb.small hb.fits _ _ _ ?_ ?_ ?_
      · intro b hlt j hj
        rw [cellAt_eq hlt, hb.zero R.heap hlt j hj]
      · rintro Z rfl k
        exact within2_load_store (g := id) (Or.inr ⟨hb.valid R.heap k.1.2 k.2.2, hb.memAddr k.1.2 k.2.2⟩) rfl
      · rintro Z rfl m hm k
        have h1 : k.1.val < cs.length := k.1.2
        refine (exec_load_store (v.addr k.1 k.2) _ id m).trans ?_
        show m (v.addr k.1 k.2) = _
        rw [hm _ (hb.valid R.heap k.1.2 k.2.2), cellAt_eq h1]
        exact hb.val R.heap k.1.2 k.2.2
  | loadBatch X Y =>
    simp only [Store.step, World.Exec]
    cases hX : s.bat X with
    | none => trivial
    | some p =>
      cases hY : s.bat Y with
      | none => trivial
      | some q =>
        obtain ⟨n, cs⟩ := p
        obtain ⟨m, ds⟩ := q
        obtain ⟨v, hv, hb⟩ := R.bat X n cs hX
        obtain ⟨u, hu, hb'⟩ := R.bat Y m ds hY
        simp only [hv, hu, hb.size, hb'.size, hb.dim, hb'.dim]
        by_cases e : cs.length = ds.length ∧ n = m
        · obtain ⟨e1, rfl⟩ := e
          simp only [if_pos (show cs.length = ds.length ∧ True from ⟨e1, trivial⟩), e1, ne_eq, not_true_eq_false, if_false]
          simp only [true_and, if_true]
          exact copyBat_done R hb hb' e1
        · simp only [if_neg e]
          by_cases e1 : ds.length ≠ cs.length
          · simp only [if_pos e1]; exact refused_throws w _
          · have e2 : 2 ^ m ≠ 2 ^ n := fun h => e ⟨by omega, (Nat.pow_right_injective (le_refl 2) h).symm⟩
            simp only [if_neg e1, if_pos e2]; exact refused_throws w _
  | loadLists X amps =>
    simp only [Store.step, World.Exec]
    cases hX : s.bat X with
    | none => trivial
    | some p =>
      obtain ⟨n, cs⟩ := p
      obtain ⟨v, hv, hb⟩ := R.bat X n cs hX
      simp only [hv, hb.size, hb.dim]
      by_cases e : amps.length = cs.length ∧ ∀ a ∈ amps, a.length = 2 ^ n
      · have e1 : ¬ amps.length ≠ cs.length := fun h => h e.1
        have e2 : ¬ (amps.any fun row => decide (row.length ≠ 2 ^ n)) = true := by
          simp only [List.any_eq_true, decide_eq_true_eq, not_exists, not_and, not_not]
          exact e.2
        simp only [if_pos e, if_neg e1, if_neg e2]
        exact loadBat_done R hb amps e.1 e.2
      · simp only [if_neg e]
        by_cases e1 : amps.length ≠ cs.length
        · simp only [if_pos e1]; exact refused_throws w _
        · have e2 : (amps.any fun row => decide (row.length ≠ 2 ^ n)) = true := by
            by_contra h
            simp only [List.any_eq_true, decide_eq_true_eq, not_exists, not_and, not_not] at h
            exact e ⟨not_not.mp e1, h⟩
          simp only [if_neg e1, if_pos e2]; exact refused_throws w _
  | setBasisBatch X k =>
    simp only [Store.step, World.Exec]
    cases hX : s.bat X with
    | none => trivial
    | some p =>
      obtain ⟨n, cs⟩ := p
      obtain ⟨v, hv, hb⟩ := R.bat X n cs hX
      simp only [hv, hb.dim]
      by_cases e : k < 2 ^ n
      · have e' : ¬ k ≥ 2 ^ n := Nat.not_le.mpr e
        simp only [if_pos e, if_neg e']
        exact fillBat_done R hb _ _ (basisState_zero e) fun i hi => basisState_ofNat hb.small hi
      · have e' : k ≥ 2 ^ n := Nat.not_lt.mp e
        simp only [if_neg e, if_pos e']
        exact refused_throws w _
  | setZeroNormBatch X =>
    simp only [Store.step, World.Exec]
    cases hX : s.bat X with
    | none => trivial
    | some p =>
      obtain ⟨n, cs⟩ := p
      obtain ⟨v, hv, hb⟩ := R.bat X n cs hX
      simp only [hv]
      exact fillBat_done R hb _ (fun _ => 0) (fun _ _ => rfl) fun _ _ => rfl
  | mulBatch X a =>
    simp only [Store.step, World.Exec]
    cases hX : s.bat X with
    | none => trivial
    | some p =>
      obtain ⟨n, cs⟩ := p
      obtain ⟨v, hv, hb⟩ := R.bat X n cs hX
      simp only [hv]
      exact scaleBat_done R hb a
  | addBatch X a Y =>
    simp only [Store.step, World.Exec]
    cases hX : s.bat X with
    | none => trivial
    | some p =>
      cases hY : s.bat Y with
      | none => trivial
      | some q =>
        obtain ⟨n, cs⟩ := p
        obtain ⟨m, ds⟩ := q
        obtain ⟨v, hv, hb⟩ := R.bat X n cs hX
        obtain ⟨u, hu, hb'⟩ := R.bat Y m ds hY
        simp only [hv, hu, hb.size, hb'.size, hb.qubits, hb'.qubits]
        by_cases e : n = m ∧ cs.length = ds.length
        · have e' : ¬ (n ≠ m ∨ cs.length ≠ ds.length) := by
            rintro (h | h)
            · exact h e.1
            · exact h e.2
          simp only [if_pos e, if_neg e']
          obtain ⟨rfl, e1⟩ := e
          exact axpyBat_done R hb hb' e1 a
        · have e' : n ≠ m ∨ cs.length ≠ ds.length := by
            by_contra h
            push Not at h
            exact e h
          simp only [if_neg e, if_pos e']
          exact refused_throws w _
  | gateBatch X d =>
    simp only [Store.step, World.Exec]
    cases hX : s.bat X with
    | none => trivial
    | some p =>
      obtain ⟨n, cs⟩ := p
      obtain ⟨v, hv, hb⟩ := R.bat X n cs hX
      simp only [hv]
      by_cases e : AcceptedGate d ∧ ∀ q ∈ qubitsOf d, q < n
      · obtain ⟨⟨hd, g, hg⟩, hq⟩ := e
        have h := gateBat_done (junk := junk) R hL (x := X) hb hd hg hq
        rw [if_pos ⟨⟨hd, g, hg⟩, hq⟩]
        by_cases hs : SmallMatrix d
        · simp only [not_true_eq_false, hs, if_false]
          exact h.1 hs
        · simp only [hs, not_false_eq_true, if_true]
          exact h.2 hs
      · simp only [if_neg e]
  | setAll X y =>
    simp only [Store.step, World.Exec]
    cases hX : s.bat X with
    | none => trivial
    | some p =>
      cases hy : s.vec y with
      | none => trivial
      | some d =>
        obtain ⟨n, cs⟩ := p
        obtain ⟨v, hv, hb⟩ := R.bat X n cs hX
        have hd := R.used y d hy
        simp only [hv, R.vec_some hy, hb.dim]
        by_cases e : n = s.qubits d
        · simp only [if_pos e]
          have e' : ¬ 2 ^ n ≠ (vecAt s ρ d).dim := by simp [vecAt, e]
          by_cases hm : d ∈ cs
          · simp only [if_pos hm]
          · simp only [if_neg hm, if_neg e']
            exact spreadBat_done R hb hd e.symm hm
        · simp only [if_neg e]
          have e' : 2 ^ n ≠ (vecAt s ρ d).dim := fun h => e (Nat.pow_right_injective (le_refl 2) h)
          simp only [if_pos e']
          exact refused_throws w _
  | setAt X b y =>
    simp only [Store.step, World.Exec]
    cases hX : s.bat X with
    | none => trivial
    | some p =>
      cases hy : s.vec y with
      | none => trivial
      | some d =>
        obtain ⟨n, cs⟩ := p
        obtain ⟨v, hv, hb⟩ := R.bat X n cs hX
        have hd := R.used y d hy
        simp only [hv, R.vec_some hy, hb.dim, hb.size]
        by_cases hlt : b < cs.length
        · have hge : ¬ b ≥ cs.length := by omega
          simp only [dif_pos hlt, if_neg hge]
          have hc := hb.cell b hlt
          by_cases e : n = s.qubits d
          · simp only [if_pos e]
            have e' : ¬ 2 ^ n ≠ (vecAt s ρ d).dim := by simp [vecAt, e]
            simp only [if_neg e']
            refine copyVecK_done R hc.1 hd (by rw [hc.2.1, e]) _ _ ⟨by rw [hc.2.1]; exact hb.dim, fun i => ?_⟩ (fun i => rfl) _ (fun i hi => Or.inl ?_)
              (fun i hi => Or.inr (vecAt_mem ?_))
            · rw [hc.2.2]; rfl
            · exact hb.mem hlt (hc.2.1 ▸ hi)
            · rw [← e, ← hc.2.1]; exact hi
          · simp only [if_neg e]
            have e' : 2 ^ n ≠ (vecAt s ρ d).dim := fun h => e (Nat.pow_right_injective (le_refl 2) h)
            simp only [if_pos e']
            exact refused_throws w _
        · have hge : b ≥ cs.length := by omega
          simp only [dif_neg hlt, if_pos hge]
          exact refused_throws w _
  | view x X b =>
    simp only [Store.step, World.Exec]
    cases hX : s.bat X with
    | none => trivial
    | some p =>
      obtain ⟨n, cs⟩ := p
      obtain ⟨v, hv, hb⟩ := R.bat X n cs hX
      simp only [hv, hb.dim, hb.size]
      by_cases hlt : b < cs.length
      · have hge : ¬ b ≥ cs.length := by omega
        simp only [dif_pos hlt, if_neg hge]
        have hc := hb.cell b hlt
        have hv : vecAt s ρ cs[b] = ⟨Nat.log 2 (2 ^ n), 2 ^ n, v.buf, b * v.stride⟩ := by
          unfold vecAt
          rw [hc.2.1, hc.2.2, Nat.log_pow (by decide)]
        rw [← hv]
        exact ⟨_, _, shareVec_done R x hc.1, fun _ _ => Iff.rfl⟩
      · have hge : b ≥ cs.length := by omega
        simp only [dif_neg hlt, if_pos hge]
        exact refused_throws w _
  | getAt x X b =>
    simp only [Store.step, World.Exec]
    cases hX : s.bat X with
    | none => trivial
    | some p =>
      obtain ⟨n, cs⟩ := p
      obtain ⟨v, hv, hb⟩ := R.bat X n cs hX
      simp only [hv, hb.size, hb.qubits, hb.dim]
      by_cases hlt : b < cs.length
      · have hge : ¬ b ≥ cs.length := by omega
        simp only [dif_pos hlt, if_neg hge]
        have hc := hb.cell b hlt
        refine newVec_done R x hb.small _ _ _ (fun j => hb.zero R.heap hlt j) (fun i => ?_) fun m hm i => ?_
        · exact within2_load_store (g := id) (Or.inr ⟨hb.valid R.heap hlt i.2, hb.memAddr hlt i.2⟩) rfl
        · refine (exec_load_store (v.addr b i) _ id m).trans ?_
          show m (v.addr b i) = _
          rw [hm _ (hb.valid R.heap hlt i.2)]
          exact hb.val R.heap hlt i.2
      · have hge : b ≥ cs.length := by omega
        simp only [dif_neg hlt, if_pos hge]
        exact refused_throws w _
  | reduced x X =>
    simp only [Store.step, World.Exec]
    cases hX : s.bat X with
    | none => trivial
    | some p =>
      obtain ⟨n, cs⟩ := p
      obtain ⟨v, hv, hb⟩ := R.bat X n cs hX
      simp only [hv, hb.qubits]
      refine newVec_done R x hb.small _ _ _ (fun j hj => ?_) (fun i => ?_) fun m hm i => ?_
      · refine Finset.sum_eq_zero fun b hbm => ?_
        have hlt := Finset.mem_range.mp hbm
        rw [cellAt_eq hlt, hb.zero R.heap hlt j hj]
      · refine within2_sumLoads _ (fun b hlt => ?_) fun x => within2_store rfl
        rw [hb.size] at hlt
        exact ⟨hb.valid R.heap hlt i.2, hb.memAddr hlt i.2⟩
      · unfold reduceBat
        rw [exec_sumLoads]
        refine (exec_store _ _ _).trans ?_
        rw [hb.size]
        refine Finset.sum_congr rfl fun b hbm => ?_
        have hlt := Finset.mem_range.mp hbm
        rw [cellAt_eq hlt, hm _ (hb.valid R.heap hlt i.2)]
        exact hb.val R.heap hlt i.2

end Verif.Proofs
