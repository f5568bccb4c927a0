import Verif.Spec.Channel
import Verif.Props.Average

/-! # The noise gates on average -/

namespace Verif.Proofs
open Verif Verif.Spec Verif.Model Verif.Props
attribute [-simp] BitVec.getLsbD_eq_getElem

/-- the Pauli gates each kind of noise chooses from -/
def noiseGates (q : Nat) : NoiseKind → List GateDesc
  | .bitFlip => [.one .X q [] [], .ident]
  | .dephasing => [.one .Z q [] [], .ident]
  | .bitFlipAndDephasing => [.one .Y q [] [], .one .X q [] [], .one .Z q [] [], .ident]
  | .depolarizing => [.one .X q [] [], .one .Y q [] [], .one .Z q [] [], .ident]

/-- their probabilities -/
noncomputable def noiseProbs (p : ℝ) : NoiseKind → List ℝ
  | .bitFlip => [p, 1 - p]
  | .dephasing => [p, 1 - p]
  | .bitFlipAndDephasing => [p * p, p * (1 - p), p * (1 - p), (1 - p) * (1 - p)]
  | .depolarizing => [p / 3, p / 3, p / 3, 1 - p]

/-- the line of a circuit with a noise gate -/
noncomputable def noiseLine (k : NoiseKind) (q : Nat) (p : ℝ) : Line := ⟨.choice (noiseProbs p k) (noiseGates q k), none⟩

theorem inverted_bit {q : Nat} (hq : q < 64) (j : U64) : (inverted q j).getLsbD q = !j.getLsbD q := by
  unfold inverted; rw [getLsbD_setBit _ hq, if_pos rfl]

theorem inverted_twice {q : Nat} (hq : q < 64) (j : U64) : inverted q (inverted q j) = j := by
  unfold inverted
  rw [getLsbD_setBit _ hq, if_pos rfl, setBit_setBit _ hq, Bool.not_not, setBit_self _ hq]

theorem inverted_lt {n q : Nat} (h64 : q < 64) (hq : q < n) {j : U64} (hj : j.toNat < 2 ^ n) : (inverted q j).toNat < 2 ^ n :=
  setBit_lt h64 hq hj _

theorem inverted_set {q : Nat} (hq : q < 64) (j : U64) (b : Bool) : setBit (inverted q j) q b = setBit j q b := by
  unfold inverted; rw [setBit_setBit _ hq]

theorem inverted_of {q : Nat} (hq : q < 64) (j : U64) (b : Bool) : inverted q (setBit j q b) = setBit j q (!b) := by
  unfold inverted; rw [getLsbD_setBit _ hq, if_pos rfl, setBit_setBit _ hq]

theorem applyX {q : Nat} (hq : q < 64) (ψ : U64 → ℂ) (j : U64) : operatorOf (.one .X q [] []) ψ j = ψ (inverted q j) := by
  show applyMat [q] pauliX [] ψ j = _
  rw [applyMat_one, if_pos (by simp [CtrlOK])]
  unfold inverted
  cases j.getLsbD q <;> simp [pauliX_entries]

theorem applyZ {q : Nat} (hq : q < 64) (ψ : U64 → ℂ) (j : U64) :
    operatorOf (.one .Z q [] []) ψ j = (if j.getLsbD q then -1 else 1) * ψ j := by
  show applyMat [q] pauliZ [] ψ j = _
  rw [applyMat_one, if_pos (by simp [CtrlOK])]
  cases h : j.getLsbD q
  · simp [pauliZ_entries, show setBit j q false = j by rw [← h, setBit_self _ hq]]
  · simp [pauliZ_entries, show setBit j q true = j by rw [← h, setBit_self _ hq]]

theorem applyY {q : Nat} (hq : q < 64) (ψ : U64 → ℂ) (j : U64) :
    operatorOf (.one .Y q [] []) ψ j = (if j.getLsbD q then Complex.I else -Complex.I) * ψ (inverted q j) := by
  show applyMat [q] pauliY [] ψ j = _
  rw [applyMat_one, if_pos (by simp [CtrlOK])]
  unfold inverted
  cases h : j.getLsbD q <;> simp [pauliY_entries]

theorem applyIdent (ψ : U64 → ℂ) : operatorOf .ident ψ = ψ := applyMat_one_id ⟨List.nodup_nil, fun q h => by cases h⟩ ψ

theorem branches_append (n : Nat) (θ : String → Option ℝ) (la lb : List Line) (s : Branch) :
    branches n θ (la ++ lb) s = (branches n θ la s).flatMap (branches n θ lb) := by
  induction la generalizing s with
  | nil => simp [branches]
  | cons l la ih =>
    simp only [List.cons_append, branches, List.flatMap_assoc]
    congr 1
    funext b
    exact ih b

/-- what a random choice makes of a quantity that depends on the state like a density matrix -/
theorem sum_choice {n : Nat} {θ : String → Option ℝ} {ps : List ℝ} {ds : List GateDesc} (hp : ∀ p ∈ ps, 0 ≤ p) {D : Branch → ℂ}
    (hD : Quadratic n D) (s : Branch) :
    ((branches n θ [⟨.choice ps ds, none⟩] s).map D).sum =
      ((ps.zip ds).map fun pd => (pd.1 : ℂ) * D ⟨onState (2 ^ n) (operatorOf pd.2) s.psi, s.reg⟩).sum := by
  simp only [branches, Line.split, Instr.split, Instr.weights, Instr.alternatives, List.flatMap_singleton', List.map_map]
  congr 1
  refine List.map_congr_left fun pd hpd => ?_
  have h0 := hp _ (List.of_mem_zip hpd).1
  show D _ = _
  rw [hD (Real.sqrt pd.1 : ℂ) _ (onState (2 ^ n) (operatorOf pd.2) s.psi) s.reg fun j _ => rfl, Complex.normSq_ofReal,
    Real.mul_self_sqrt h0]

theorem noiseProbs_facts {p : ℝ} (h0 : 0 ≤ p) (h1 : p ≤ 1) (k : NoiseKind) :
    (∀ x ∈ noiseProbs p k, 0 ≤ x) ∧ (noiseProbs p k).sum = 1 := by
  have h2 : 0 ≤ 1 - p := by linarith
  have a := mul_nonneg h0 h0
  have b := mul_nonneg h0 h2
  have c := mul_nonneg h2 h2
  cases k <;> simp only [noiseProbs, List.mem_cons, List.not_mem_nil, or_false, forall_eq_or_imp, forall_eq, List.sum_cons, List.sum_nil]
  · exact ⟨⟨h0, h2⟩, by ring⟩
  · exact ⟨⟨h0, h2⟩, by ring⟩
  · exact ⟨⟨a, b, b, c⟩, by ring⟩
  · exact ⟨⟨by linarith, by linarith, by linarith, h2⟩, by ring⟩

/-- one noise gate on the density matrix of the branches -/
theorem density_noise {n q : Nat} (hn : n < 64) (hq : q < n) {p : ℝ} (h0 : 0 ≤ p) (h1 : p ≤ 1) (k : NoiseKind) {θ : String → Option ℝ}
    (ls : List Line) (s : Branch) (r : List Bool) {i j : U64} (hi : i.toNat < 2 ^ n) (hj : j.toNat < 2 ^ n) :
    density (branches n θ (ls ++ [noiseLine k q p]) s) r i j = k.channel q p (density (branches n θ ls s) r) i j := by
  have h64 : q < 64 := by omega
  have hD : Quadratic n fun b => if b.reg = r then b.psi i * (starRingEnd ℂ) (b.psi j) else 0 := by
    intro c φ ψ r' h
    dsimp only
    split
    · rw [h i hi, h j hj, map_mul, Complex.normSq_eq_conj_mul_self]; ring
    · simp
  have hst : ∀ (d : GateDesc) (ψ : U64 → ℂ) (x : U64), x.toNat < 2 ^ n → onState (2 ^ n) (operatorOf d) ψ x = operatorOf d ψ x :=
    fun d ψ x hx => if_pos hx
  unfold density
  rw [branches_append, sum_flatMap]
  generalize branches n θ ls s = bs
  induction bs with
  | nil =>
    cases k <;> simp [NoiseKind.channel, bitFlipped, dephased, depolarized, replaced]
  | cons b bs ih =>
    rw [List.map_cons, List.sum_cons, ih]
    have hone : ((branches n θ [noiseLine k q p] b).map fun b => if b.reg = r then b.psi i * (starRingEnd ℂ) (b.psi j) else 0).sum =
        k.channel q p (fun i j => if b.reg = r then b.psi i * (starRingEnd ℂ) (b.psi j) else 0) i j := by
      rw [noiseLine, sum_choice (noiseProbs_facts h0 h1 k).1 hD]
      by_cases hr : b.reg = r
      · cases k
        · simp only [noiseProbs, noiseGates, List.zip_cons_cons, List.zip_nil_right, List.map_cons, List.map_nil, List.sum_cons, List.sum_nil, hr,
            if_true, hst _ _ _ hi, hst _ _ _ hj, applyX h64, applyY h64, applyZ h64, applyIdent, NoiseKind.channel, bitFlipped]
          push_cast; ring
        · simp only [noiseProbs, noiseGates, List.zip_cons_cons, List.zip_nil_right, List.map_cons, List.map_nil, List.sum_cons, List.sum_nil, hr,
            if_true, hst _ _ _ hi, hst _ _ _ hj, applyX h64, applyY h64, applyZ h64, applyIdent, NoiseKind.channel, dephased]
          cases i.getLsbD q <;> cases j.getLsbD q <;> simp <;> ring
        · simp only [noiseProbs, noiseGates, List.zip_cons_cons, List.zip_nil_right, List.map_cons, List.map_nil, List.sum_cons, List.sum_nil, hr,
            if_true, hst _ _ _ hi, hst _ _ _ hj, applyX h64, applyY h64, applyZ h64, applyIdent, NoiseKind.channel, bitFlipped, dephased,
            inverted_bit h64]
          cases i.getLsbD q <;> cases j.getLsbD q <;> simp <;> ring_nf <;> simp only [Complex.I_sq] <;> ring
        · simp only [noiseProbs, noiseGates, List.zip_cons_cons, List.zip_nil_right, List.map_cons, List.map_nil, List.sum_cons, List.sum_nil, hr,
            if_true, hst _ _ _ hi, hst _ _ _ hj, applyX h64, applyY h64, applyZ h64, applyIdent, NoiseKind.channel, depolarized, replaced]
          have hs : ∀ x : U64, setBit x q (x.getLsbD q) = x := fun x => setBit_self _ h64
          have ei := hs i
          have ej := hs j
          have hii : inverted q i = setBit i q (!i.getLsbD q) := rfl
          have hjj : inverted q j = setBit j q (!j.getLsbD q) := rfl
          rw [hii, hjj]
          cases hbi : i.getLsbD q <;> cases hbj : j.getLsbD q <;> rw [hbi] at ei <;> rw [hbj] at ej <;> simp [ei, ej] <;> ring_nf <;>
            simp only [Complex.I_sq] <;> ring
      · cases k <;> simp [hr, NoiseKind.channel, bitFlipped, dephased, depolarized, replaced, noiseProbs, noiseGates]
    rw [hone]
    cases k <;> simp only [List.map_cons, List.sum_cons, NoiseKind.channel, bitFlipped, dephased, depolarized, replaced] <;> split_ifs <;>
      ring

/-- repeated noise -/
theorem channel_rate_zero (k : NoiseKind) (q : Nat) (p : ℝ) (ρ : Elements) (i j : U64) : k.channel q (k.rate p 0) ρ i j = ρ i j := by
  cases k <;> simp [NoiseKind.rate, NoiseKind.channel, bitFlipped, dephased, depolarized]

theorem channel_rate_succ {q : Nat} (hq : q < 64) (k : NoiseKind) (p : ℝ) (m : Nat) (ρ : Elements) (i j : U64) :
    k.channel q p (k.channel q (k.rate p m) ρ) i j = k.channel q (k.rate p (m + 1)) ρ i j := by
  cases k <;> simp only [NoiseKind.rate, NoiseKind.channel, bitFlipped, dephased, depolarized, replaced, inverted_twice hq, inverted_bit hq,
    Complex.ofReal_div, Complex.ofReal_sub, Complex.ofReal_pow, Complex.ofReal_mul, Complex.ofReal_one, Complex.ofReal_ofNat, pow_succ,
    getLsbD_setBit _ hq, setBit_setBit _ hq, if_true, Bool.not_not]
  · ring
  · split <;> ring
  · cases i.getLsbD q <;> cases j.getLsbD q <;> simp <;> ring
  · split <;> ring

theorem channel_congr {n q : Nat} (h64 : q < 64) (hq : q < n) (k : NoiseKind) (p : ℝ) {ρ σ : Elements}
    (h : ∀ i j : U64, i.toNat < 2 ^ n → j.toNat < 2 ^ n → ρ i j = σ i j) {i j : U64} (hi : i.toNat < 2 ^ n) (hj : j.toNat < 2 ^ n) :
    k.channel q p ρ i j = k.channel q p σ i j := by
  have hb := fun b c => h _ _ (setBit_lt h64 hq hi b) (setBit_lt h64 hq hj c)
  cases k <;> simp only [NoiseKind.channel, bitFlipped, dephased, depolarized, replaced, h i j hi hj, hb,
    h _ _ (inverted_lt h64 hq hi) (inverted_lt h64 hq hj)]

theorem density_repeat {n q : Nat} (hn : n < 64) (hq : q < n) {p : ℝ} (h0 : 0 ≤ p) (h1 : p ≤ 1) (k : NoiseKind) {θ : String → Option ℝ}
    (ls : List Line) (s : Branch) (r : List Bool) (m : Nat) {i j : U64} (hi : i.toNat < 2 ^ n) (hj : j.toNat < 2 ^ n) :
    density (branches n θ (ls ++ List.replicate m (noiseLine k q p)) s) r i j =
      k.channel q (k.rate p m) (density (branches n θ ls s) r) i j := by
  induction m generalizing i j with
  | zero => rw [channel_rate_zero]; simp
  | succ m ih =>
    rw [List.replicate_succ', ← List.append_assoc, density_noise hn hq h0 h1 k _ s r hi hj,
      channel_congr (by omega) hq k p (fun i j hi hj => ih hi hj) hi hj, channel_rate_succ (by omega)]

/-! ## Pauli observables -/

theorem sandwich_exp (x z x' z' j : U64) :
    pauliExp x z j + pauliExp x' z' (j ^^^ x) + pauliExp x z (j ^^^ x ^^^ x') ≡
      2 * ((popcount (x &&& z') + popcount (z &&& x') : ℕ) : ℤ) + pauliExp x' z' j [ZMOD 4] := by
  unfold pauliExp
  push_cast
  simp only [popcount_cast]
  rw [mul_add]
  simp only [Finset.mul_sum, ← Finset.sum_neg_distrib]
  simp only [← Finset.sum_add_distrib, ← Finset.sum_sub_distrib]
  apply modEq_sum
  intro q hq
  simp only [BitVec.getLsbD_and, BitVec.getLsbD_xor]
  cases x.getLsbD q <;> cases z.getLsbD q <;> cases x'.getLsbD q <;> cases z'.getLsbD q <;>
    cases j.getLsbD q <;> decide

theorem sandwich (x z x' z' : U64) (ψ : U64 → ℂ) (j : U64) :
    pauliAct x z (pauliAct x' z' (pauliAct x z ψ)) j = (-1) ^ (popcount (x &&& z') + popcount (z &&& x')) * pauliAct x' z' ψ j := by
  unfold pauliAct
  rw [← I_zpow_two_mul, ← mul_assoc, ← mul_assoc, ← mul_assoc, ← I_zpow_add, ← I_zpow_add, ← I_zpow_add, I_zpow_congr (sandwich_exp x z x' z' j)]
  congr 2
  apply U64.ext; intro i _
  simp only [BitVec.getLsbD_xor]
  cases j.getLsbD i <;> cases x.getLsbD i <;> cases x'.getLsbD i <;> rfl

theorem pauli_gate {q : Nat} (hq : q < 64) (bx bz : Bool) (ψ : U64 → ℂ) :
    applyMat [q] (pauli1Mat (letter bx bz)) [] ψ = pauliAct (addBit 0 q bx) (addBit 0 q bz) ψ := by
  have h := pauliAct_add (x := 0) (z := 0) hq (by exact BitVec.getLsbD_zero) (by exact BitVec.getLsbD_zero) bx bz ψ
  rwa [pauliAct_zero] at h

theorem popcount_addBit {q : Nat} (hq : q < 64) (b : Bool) (m : U64) : popcount (addBit 0 q b &&& m) = (b && m.getLsbD q).toNat := by
  rw [popcount_eq_sum, Finset.sum_eq_single q]
  · rw [BitVec.getLsbD_and, getLsbD_addBit _ hq]; simp
  · intro i _ hi
    rw [BitVec.getLsbD_and, getLsbD_addBit _ hq]; simp [hi]
  · intro h; exact absurd (Finset.mem_range.2 hq) h

/-- a Pauli gate on one qubit changes at most the sign of the expectation value of a Pauli observable -/
theorem expect_pauli {n q : Nat} (hn : n < 64) (hq : q < n) {t : PauliOp} (bx bz : Bool) (ψ : U64 → ℂ) :
    Spec.inner (2 ^ n) (applyMat [q] (pauli1Mat (letter bx bz)) [] ψ) (pauliOperator t (applyMat [q] (pauli1Mat (letter bx bz)) [] ψ)) =
      (-1) ^ ((bx && t.z.getLsbD q).toNat + (bz && t.x.getLsbD q).toNat) * Spec.inner (2 ^ n) ψ (pauliOperator t ψ) := by
  have h64 : q < 64 := by omega
  have hx : (addBit 0 q bx).toNat < 2 ^ n := by
    rw [toNat_lt_two_pow_iff]
    intro i hi
    rw [getLsbD_addBit _ h64]
    simp; omega
  have h := inner_pauliAct (flipOK_zero (show n ≤ 64 by omega) hx) (addBit 0 q bz) ψ (pauliOperator t (pauliAct (addBit 0 q bx) (addBit 0 q bz) ψ))
  rw [Nat.one_mul] at h
  rw [pauli_gate h64, ← h]
  unfold Spec.inner
  rw [Finset.mul_sum]
  refine Finset.sum_congr rfl fun j _ => ?_
  rw [pauliOperator_eq, pauliOperator_eq]
  unfold PauliAct
  rw [pauliAct_smul]
  dsimp only
  rw [sandwich, popcount_addBit h64, popcount_addBit h64]
  ring

/-- the average of a Pauli observable after a noise gate -/
theorem expect_noise {n q : Nat} (hn : n < 64) (hq : q < n) {p : ℝ} (h0 : 0 ≤ p) (h1 : p ≤ 1) (k : NoiseKind) {θ : String → Option ℝ}
    (ls : List Line) (s : Branch) {t : PauliOp} (ht : PauliFits t n) :
    ((branches n θ (ls ++ [noiseLine k q p]) s).map fun b => Spec.inner (2 ^ n) b.psi (pauliOperator t b.psi)).sum =
      (k.damping p (letterAt t q) : ℂ) * ((branches n θ ls s).map fun b => Spec.inner (2 ^ n) b.psi (pauliOperator t b.psi)).sum := by
  have h64 : q < 64 := by omega
  have hs : ∀ φ : U64 → ℂ, sumOperator [t] φ = pauliOperator t φ := fun φ => by funext j; simp [sumOperator]
  have hD : Quadratic n fun b => Spec.inner (2 ^ n) b.psi (pauliOperator t b.psi) := by
    have := quadratic_expectation hn (o := ⟨[t], true, false⟩) (fun x hx => by simp only [List.mem_singleton] at hx; rw [hx]; exact ht)
    simpa only [hs] using this
  have hst : ∀ (d : GateDesc) (ψ : U64 → ℂ), Spec.inner (2 ^ n) (onState (2 ^ n) (operatorOf d) ψ) (pauliOperator t (onState (2 ^ n) (operatorOf d) ψ)) =
      Spec.inner (2 ^ n) (operatorOf d ψ) (pauliOperator t (operatorOf d ψ)) := by
    intro d ψ
    have := hD 1 (onState (2 ^ n) (operatorOf d) ψ) (operatorOf d ψ) [] fun j hj => by
      rw [show onState (2 ^ n) (operatorOf d) ψ j = _ from if_pos hj]; simp
    simpa using this
  rw [branches_append, sum_flatMap, ← List.sum_map_mul_left]
  congr 1
  refine List.map_congr_left fun b _ => ?_
  rw [noiseLine, sum_choice (noiseProbs_facts h0 h1 k).1 hD]
  have hX := expect_pauli hn hq (t := t) true false b.psi
  have hY := expect_pauli hn hq (t := t) true true b.psi
  have hZ := expect_pauli hn hq (t := t) false true b.psi
  have eX : operatorOf (.one .X q [] []) b.psi = applyMat [q] (pauli1Mat (letter true false)) [] b.psi := rfl
  have eY : operatorOf (.one .Y q [] []) b.psi = applyMat [q] (pauli1Mat (letter true true)) [] b.psi := rfl
  have eZ : operatorOf (.one .Z q [] []) b.psi = applyMat [q] (pauli1Mat (letter false true)) [] b.psi := rfl
  cases k <;>
  · simp only [noiseProbs, noiseGates, List.zip_cons_cons, List.zip_nil_right, List.map_cons, List.map_nil, List.sum_cons, List.sum_nil, hst,
      applyIdent, eX, eY, eZ, hX, hY, hZ, letterAt]
    cases t.x.getLsbD q <;> cases t.z.getLsbD q <;> simp [NoiseKind.damping] <;> ring

theorem expect_repeat {n q : Nat} (hn : n < 64) (hq : q < n) {p : ℝ} (h0 : 0 ≤ p) (h1 : p ≤ 1) (k : NoiseKind) {θ : String → Option ℝ}
    (ls : List Line) (s : Branch) {t : PauliOp} (ht : PauliFits t n) (m : Nat) :
    ((branches n θ (ls ++ List.replicate m (noiseLine k q p)) s).map fun b => Spec.inner (2 ^ n) b.psi (pauliOperator t b.psi)).sum =
      (k.damping p (letterAt t q) : ℂ) ^ m * ((branches n θ ls s).map fun b => Spec.inner (2 ^ n) b.psi (pauliOperator t b.psi)).sum := by
  induction m with
  | zero => simp
  | succ m ih => rw [List.replicate_succ', ← List.append_assoc, expect_noise hn hq h0 h1 k _ s ht, ih, pow_succ]; ring

end Verif.Proofs
