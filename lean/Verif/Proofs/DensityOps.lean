import Verif.Proofs.PartialTrace

/-! # What the operations on a density matrix do -/

namespace Verif.Proofs
open Verif Verif.Spec Verif.Model
open scoped ComplexConjugate
attribute [-simp] BitVec.getLsbD_eq_getElem

theorem does_unique {d d' d'' : DM} {op : DMOp} (h : d.Does op d') (h' : d.Does op d'') : d' = d'' := by
  obtain ⟨u, hu, h1, h2, h3⟩ := h
  obtain ⟨u', hu', h1', h2', h3'⟩ := h'
  rw [hu] at hu'
  cases hu'
  cases d'; cases d''
  dsimp only at *
  rw [h1, h1', h2, h2', MRuns.unique h3 h3']

/-- the content of a `dim × dim` matrix replaced by `f` -/
noncomputable def setCells (dim : Nat) (f ρ : U64 × U64 → ℂ) : U64 × U64 → ℂ := fun p =>
  if p.1.toNat < dim ∧ p.2.toNat < dim then f p else ρ p

theorem setCells_in {dim : Nat} {f ρ : U64 × U64 → ℂ} {i j : U64} (hi : i.toNat < dim) (hj : j.toNat < dim) :
    setCells dim f ρ (i, j) = f (i, j) := if_pos ⟨hi, hj⟩

theorem does_fill {d : DM} {op : DMOp} (hn : d.n < 32) {h : Bool} {f : U64 × U64 → ℂ} (he : op.exec d = .ok ⟨h, [fillM (2 ^ d.n) f]⟩) :
    d.Does op ⟨d.n, h, setCells (2 ^ d.n) f d.raw⟩ := ⟨_, he, rfl, rfl, fillM_runs hn f d.raw⟩

theorem does_map {d : DM} {op : DMOp} (hn : d.n < 32) {h : Bool} {f : U64 × U64 → ℂ → ℂ}
    (he : op.exec d = .ok ⟨h, [elementwiseM (2 ^ d.n) f]⟩) :
    d.Does op ⟨d.n, h, setCells (2 ^ d.n) (fun p => f p (d.raw p)) d.raw⟩ := ⟨_, he, rfl, rfl, elementwiseM_runs hn f d.raw⟩

theorem trace_eq {d : DM} (hn : d.n < 64) : d.trace = .ok (traceOf (2 ^ d.n) d.raw) := by
  have hp : (2 : Nat) ^ d.n < 2 ^ 64 := Nat.pow_lt_pow_right (by norm_num) hn
  unfold DM.trace traceOf
  rw [reduceSum_ok]
  intro i hi
  unfold readM
  rw [if_pos]
  rw [Verif.toNat_ofNat_lt (by omega)]
  exact ⟨hi, hi⟩

theorem inMat_ofNat {n row col : Nat} (hn : n < 64) (h : ¬ (row ≥ 2 ^ n ∨ col ≥ 2 ^ n)) :
    InMat (2 ^ n) (BitVec.ofNat 64 row, BitVec.ofNat 64 col) := by
  have hp : (2 : Nat) ^ n < 2 ^ 64 := Nat.pow_lt_pow_right (by norm_num) hn
  push Not at h
  refine ⟨?_, ?_⟩
  · show (BitVec.ofNat 64 row).toNat < _; rw [Verif.toNat_ofNat_lt (by omega)]; exact h.1
  · show (BitVec.ofNat 64 col).toNat < _; rw [Verif.toNat_ofNat_lt (by omega)]; exact h.2

theorem does_setCoherence {d : DM} (hn : d.n < 64) {row col : Nat} (c : ℂ) (hr : row < 2 ^ d.n) (hc : col < 2 ^ d.n) :
    d.Does (.setCoherence row col c) ⟨d.n, d.hermitian && (decide (row = col) && decide (c.im = 0)),
      Function.update d.raw (BitVec.ofNat 64 row, BitVec.ofNat 64 col) c⟩ := by
  have h : ¬ (row ≥ 2 ^ d.n ∨ col ≥ 2 ^ d.n) := by omega
  have he : DMOp.exec d (.setCoherence row col c) = .ok ⟨d.hermitian && (decide (row = col) && decide (c.im = 0)),
      [pokeM (BitVec.ofNat 64 row, BitVec.ofNat 64 col) c]⟩ := by
    simp only [DMOp.exec]
    rw [if_neg h]
  refine ⟨_, he, rfl, rfl, ?_⟩
  · exact ⟨_, pokeM_runs (inMat_ofNat hn h) c _, rfl⟩

theorem does_setPair {d : DM} (hn : d.n < 64) {row col : Nat} (c : ℂ) (hr : row < 2 ^ d.n) (hc : col < 2 ^ d.n) :
    d.Does (.setCoherencePair row col c) ⟨d.n, d.hermitian, fun p =>
      if p = (BitVec.ofNat 64 row, BitVec.ofNat 64 col) then c
      else if p = (BitVec.ofNat 64 col, BitVec.ofNat 64 row) then conj c else d.raw p⟩ := by
  have h : ¬ (row ≥ 2 ^ d.n ∨ col ≥ 2 ^ d.n) := by omega
  have hp : (2 : Nat) ^ d.n < 2 ^ 64 := Nat.pow_lt_pow_right (by norm_num) hn
  have he : DMOp.exec d (.setCoherencePair row col c) = .ok ⟨d.hermitian, pokeM (BitVec.ofNat 64 row, BitVec.ofNat 64 col) c ::
      (if row ≠ col then [pokeM (BitVec.ofNat 64 col, BitVec.ofNat 64 row) (conj c)] else [])⟩ := by
    simp only [DMOp.exec]
    rw [if_neg h]
  refine ⟨_, he, rfl, rfl, ?_⟩
  · refine ⟨_, pokeM_runs (inMat_ofNat hn h) c _, ?_⟩
    by_cases hrc : row = col
    · subst hrc
      rw [if_neg (by simp)]
      show _ = _
      funext p
      dsimp only
      rw [Function.update_apply]
      by_cases h1 : p = (BitVec.ofNat 64 row, BitVec.ofNat 64 row)
      · rw [if_pos h1, if_pos h1]
      · rw [if_neg h1, if_neg h1, if_neg h1]
    · rw [if_pos hrc]
      refine ⟨_, pokeM_runs (inMat_ofNat hn (by omega)) _ _, ?_⟩
      funext p
      dsimp only
      rw [Function.update_apply, Function.update_apply]
      by_cases h1 : p = (BitVec.ofNat 64 row, BitVec.ofNat 64 col)
      · rw [if_pos h1, if_pos h1, if_neg]
        rw [h1]
        intro e
        apply hrc
        have := congrArg BitVec.toNat (Prod.ext_iff.1 e).1
        dsimp only at this
        rwa [Verif.toNat_ofNat_lt (by omega), Verif.toNat_ofNat_lt (by omega)] at this
      · rw [if_neg h1, if_neg h1]

theorem does_force (d : DM) : d.Does .forceHermitian ⟨d.n, true, d.raw⟩ := ⟨_, rfl, rfl, rfl, rfl⟩

theorem does_normalize {d : DM} (hn : d.n < 32) (ht : traceOf (2 ^ d.n) d.raw ≠ 0) :
    d.Does .normalize ⟨d.n, d.hermitian, setCells (2 ^ d.n) (fun p => d.raw p / traceOf (2 ^ d.n) d.raw) d.raw⟩ := by
  apply does_map hn (f := fun _ a => a / traceOf (2 ^ d.n) d.raw)
  simp only [DMOp.exec]
  rw [trace_eq (by omega), ok_bind, if_neg ht]
  rfl

theorem does_gate {d : DM} (hn : d.n < 32) {g : UGate} (hv : Valid g) {d' : DM} (h : d.Does (.gate g) d') :
    (∀ q ∈ UGate.ts g, q < d.n) ∧ (∀ p ∈ UGate.cs g, p.1 < d.n) ∧
      d' = ⟨d.n, d.hermitian, onMatrix (2 ^ d.n) (opOf g) d.raw⟩ := by
  obtain ⟨u, hu, h1, h2, h3⟩ := h
  simp only [DMOp.exec] at hu
  obtain ⟨l, hl, hu⟩ := bind_ok hu
  cases hu
  have hs : StandardGate g := by
    cases g <;> first | trivial | (simp [UGate.updateDM] at hl)
  by_cases hb : (∀ q ∈ UGate.ts g, q < d.n) ∧ ∀ p ∈ UGate.cs g, p.1 < d.n
  · obtain ⟨l', hl', hr⟩ := updateDM_valid hv hs hn hb.1 hb.2
    rw [hl] at hl'
    cases hl'
    refine ⟨hb.1, hb.2, ?_⟩
    cases d'
    dsimp only at *
    rw [h1, h2, MRuns.unique h3 (hr d.raw)]
  · obtain ⟨s, hs'⟩ := updateDM_throws hv hs (by omega) hb
    rw [hl] at hs'
    cases hs'

/-! ## the flag -/

/-- a raised flag is right -/
def FlagSound (d : DM) : Prop := d.hermitian = true → HermitianOn (2 ^ d.n) d.raw

/-- the other density matrix an operation reads -/
def _root_.Verif.Model.DMOp.other? : DMOp → Option DM
  | .loadDM o => some o
  | .addWithCoef _ o => some o
  | _ => none

/-- the caller's claims are true: a matrix loaded as Hermitian or declared Hermitian is, a diagonal element set as a pair is
real, and a gate was made by a factory -/
def _root_.Verif.Model.DMOp.Honest (d : DM) : DMOp → Prop
  | .loadMatrix _ _ entry isHermitian => isHermitian = true → HermitianOn (2 ^ d.n) entry
  | .forceHermitian => HermitianOn (2 ^ d.n) d.raw
  | .setCoherencePair row col c => row = col → c.im = 0
  | .gate g => ∃ desc, DescOK desc ∧ desc.build = .ok g
  | _ => True

theorem hermitian_setCells {dim : Nat} {f ρ : U64 × U64 → ℂ} (h : HermitianOn dim f) : HermitianOn dim (setCells dim f ρ) := by
  intro i j hi hj
  rw [setCells_in hi hj, setCells_in hj hi]
  exact h i j hi hj

theorem conj_real {z : ℂ} (h : z.im = 0) : conj z = z := by
  apply Complex.ext <;> simp [h]

theorem trace_real {n : Nat} (hn : n < 64) {ρ : U64 × U64 → ℂ} (h : HermitianOn (2 ^ n) ρ) : conj (traceOf (2 ^ n) ρ) = traceOf (2 ^ n) ρ := by
  have hp : (2 : Nat) ^ n < 2 ^ 64 := Nat.pow_lt_pow_right (by norm_num) hn
  unfold traceOf
  rw [map_sum]
  refine Finset.sum_congr rfl fun i hi => ?_
  rw [Finset.mem_range] at hi
  exact (h _ _ (by rw [Verif.toNat_ofNat_lt (by omega)]; exact hi) (by rw [Verif.toNat_ofNat_lt (by omega)]; exact hi)).symm

theorem flagSound_step {d d' : DM} {op : DMOp} (hn : d.n < 32) (hs : FlagSound d) (ho : op.Honest d)
    (hother : ∀ o, op.other? = some o → FlagSound o) (h : d.Does op d') : FlagSound d' ∧ d'.n = d.n := by
  refine ⟨?_, h.elim fun _ hu => hu.2.1⟩
  have hp : (2 : Nat) ^ d.n < 2 ^ 64 := Nat.pow_lt_pow_right (by norm_num) (by omega)
  have hok : ∃ u, op.exec d = .ok u := h.elim fun u hu => ⟨u, hu.1⟩
  cases op with
  | setZeroState =>
    rw [does_unique h (does_fill hn rfl)]
    intro _
    apply hermitian_setCells
    intro i j _ _
    dsimp only
    by_cases h1 : i = 0
    · by_cases h2 : j = 0
      · rw [if_pos ⟨h1, h2⟩, if_pos ⟨h2, h1⟩, map_one]
      · rw [if_neg (fun h => h2 h.2), if_neg (fun h => h2 h.1), map_zero]
    · rw [if_neg (fun h => h1 h.1), if_neg (fun h => h1 h.2), map_zero]
  | setZeroNormState =>
    rw [does_unique h (does_fill hn rfl)]
    intro _
    apply hermitian_setCells
    intro i j _ _
    simp
  | setBasis b =>
    obtain ⟨u, hu⟩ := hok
    simp only [DMOp.exec] at hu
    by_cases hb : b ≥ 2 ^ d.n
    · rw [if_pos hb] at hu; cases hu
    rw [does_unique h (does_fill hn (by simp only [DMOp.exec]; rw [if_neg hb]))]
    intro _
    apply hermitian_setCells
    intro i j _ _
    dsimp only
    by_cases h1 : i = BitVec.ofNat 64 b <;> by_cases h2 : j = BitVec.ofNat 64 b <;> simp [h1, h2]
  | setCoherence row col c =>
    obtain ⟨u, hu⟩ := hok
    simp only [DMOp.exec] at hu
    by_cases hb : row ≥ 2 ^ d.n ∨ col ≥ 2 ^ d.n
    · rw [if_pos hb] at hu; cases hu
    push Not at hb
    rw [does_unique h (does_setCoherence (by omega) c hb.1 hb.2)]
    intro hf
    simp only [Bool.and_eq_true, decide_eq_true_eq] at hf
    obtain ⟨hf, rfl, him⟩ := hf
    intro i j hi hj
    dsimp only
    have hsym : ∀ i j, (i, j) = (BitVec.ofNat 64 row, BitVec.ofNat 64 row) ↔ (j, i) = (BitVec.ofNat 64 row, BitVec.ofNat 64 row) := by
      intro i j
      simp only [Prod.mk.injEq]
      exact and_comm
    rw [Function.update_apply, Function.update_apply]
    by_cases h1 : (i, j) = (BitVec.ofNat 64 row, BitVec.ofNat 64 row)
    · rw [if_pos h1, if_pos ((hsym _ _).1 h1), conj_real him]
    · rw [if_neg h1, if_neg (fun h2 => h1 ((hsym _ _).2 h2))]
      exact hs hf i j hi hj
  | setCoherencePair row col c =>
    obtain ⟨u, hu⟩ := hok
    simp only [DMOp.exec] at hu
    by_cases hb : row ≥ 2 ^ d.n ∨ col ≥ 2 ^ d.n
    · rw [if_pos hb] at hu; cases hu
    push Not at hb
    rw [does_unique h (does_setPair (by omega) c hb.1 hb.2)]
    intro hf i j hi hj
    dsimp only at hf ⊢
    have hsw : ∀ a b : Nat, (i, j) = (BitVec.ofNat 64 a, BitVec.ofNat 64 b) ↔ (j, i) = (BitVec.ofNat 64 b, BitVec.ofNat 64 a) := by
      intro a b
      simp only [Prod.mk.injEq]
      exact and_comm
    simp only [hsw row col, hsw col row]
    by_cases h1 : (j, i) = (BitVec.ofNat 64 col, BitVec.ofNat 64 row) <;> by_cases h2 : (j, i) = (BitVec.ofNat 64 row, BitVec.ofNat 64 col)
    · rw [if_pos h1, if_pos h2, conj_real]
      apply ho
      have := congrArg BitVec.toNat (Prod.ext_iff.1 (h1.symm.trans h2)).1
      dsimp only at this
      rw [Verif.toNat_ofNat_lt (by omega), Verif.toNat_ofNat_lt (by omega)] at this
      exact this.symm
    · rw [if_pos h1, if_neg h2, if_pos h1, Complex.conj_conj]
    · rw [if_neg h1, if_pos h2, if_pos h2]
    · rw [if_neg h1, if_neg h2, if_neg h2, if_neg h1]
      exact hs hf i j hi hj
  | loadVector n ψ =>
    obtain ⟨u, hu⟩ := hok
    simp only [DMOp.exec] at hu
    by_cases hb : n ≠ d.n
    · rw [if_pos hb] at hu; cases hu
    rw [does_unique h (does_fill hn (by simp only [DMOp.exec]; rw [if_neg hb]))]
    intro _
    apply hermitian_setCells
    intro i j _ _
    dsimp only
    rw [map_mul, Complex.conj_conj, mul_comm]
  | loadDM o =>
    obtain ⟨u, hu⟩ := hok
    simp only [DMOp.exec] at hu
    by_cases hb : o.n ≠ d.n
    · rw [if_pos hb] at hu; cases hu
    rw [does_unique h (does_fill hn (by simp only [DMOp.exec]; rw [if_neg hb]))]
    intro hf
    apply hermitian_setCells
    have := hother o rfl hf
    rwa [not_not.1 hb] at this
  | loadMatrix rows cols entry fl =>
    obtain ⟨u, hu⟩ := hok
    simp only [DMOp.exec] at hu
    by_cases hb : rows ≠ 2 ^ d.n ∨ cols ≠ 2 ^ d.n
    · rw [if_pos hb] at hu; cases hu
    rw [does_unique h (does_fill hn (by simp only [DMOp.exec]; rw [if_neg hb]))]
    intro hf
    exact hermitian_setCells (ho hf)
  | forceHermitian =>
    rw [does_unique h (does_force d)]
    intro _
    exact ho
  | normalize =>
    obtain ⟨u, hu⟩ := hok
    simp only [DMOp.exec] at hu
    rw [trace_eq (by omega), ok_bind] at hu
    by_cases ht : traceOf (2 ^ d.n) d.raw = 0
    · rw [if_pos ht] at hu; cases hu
    rw [does_unique h (does_normalize hn ht)]
    intro hf
    apply hermitian_setCells
    intro i j hi hj
    dsimp only
    rw [map_div₀, trace_real (by omega) (hs hf), hs hf i j hi hj]
  | addWithCoef coef o =>
    obtain ⟨u, hu⟩ := hok
    simp only [DMOp.exec] at hu
    by_cases hb : o.n ≠ d.n
    · rw [if_pos hb] at hu; cases hu
    rw [does_unique h (does_map hn (by simp only [DMOp.exec]; rw [if_neg hb]))]
    intro hf
    dsimp only at hf
    by_cases hc : o.hermitian = false ∨ coef.im ≠ 0
    · rw [if_pos hc] at hf; cases hf
    rw [if_neg hc] at hf
    push Not at hc
    have hoh := hother o rfl (by simpa using hc.1)
    rw [not_not.1 hb] at hoh
    apply hermitian_setCells
    intro i j hi hj
    dsimp only
    rw [map_add, map_mul, conj_real hc.2, hs hf i j hi hj, hoh i j hi hj]
  | multiplyCoef coef =>
    rw [does_unique h (does_map hn rfl)]
    intro hf
    dsimp only at hf
    by_cases hc : coef.im ≠ 0
    · rw [if_pos hc] at hf; cases hf
    rw [if_neg hc] at hf
    apply hermitian_setCells
    intro i j hi hj
    dsimp only
    rw [map_mul, conj_real (not_not.1 hc), hs hf i j hi hj]
  | gate g =>
    obtain ⟨desc, hdo, hb⟩ := ho
    obtain ⟨hv, -, -⟩ := build_valid hdo hb
    obtain ⟨ht, hc, rfl⟩ := does_gate hn hv h
    intro hf
    exact onMatrix_hermitian (by omega) (valid_targetsOK g).lt ht _ (hs hf)

/-- `get_partial_trace` that returns, with fewer than 16 qubits left -/
theorem partialTrace_cases {d d' : DM} {qs : List Nat} (hn : d.n < 32) (h : d.PartialTraces qs d') (h16 : qs = [] ∨ d.n - qs.length < 16) :
    qs.Nodup ∧ (∀ q ∈ qs, q < d.n) ∧ d'.n = d.n - qs.length ∧ d'.hermitian = d.hermitian ∧
      ∀ p : U64 × U64, p.1.toNat < 2 ^ d'.n ∧ p.2.toNat < 2 ^ d'.n → d'.raw p = partialTraceOf d.n qs d.raw p := by
  obtain ⟨r, hr, h1, h2, junk, hM⟩ := h
  by_cases hne : qs = []
  · subst hne
    unfold DM.partialTrace at hr
    rw [if_pos rfl] at hr
    cases hr
    dsimp only at *
    refine ⟨List.nodup_nil, by simp, by simpa using h1, h2, fun p hp => ?_⟩
    rw [h1] at hp
    rw [MRuns.unique hM (fillM_runs hn _ _)]
    dsimp only
    rw [if_pos hp]
    unfold partialTraceOf
    have hj : ∀ i : U64, i.toNat < 2 ^ d.n → jointIndex d.n [] i.toNat 0 = i := by
      intro i hi
      have := jointIndex_getBits (n := d.n) (qs := []) (by omega) List.nodup_nil (by simp) hi
      have e : keptQubits d.n [] = List.range d.n := by unfold keptQubits; simp
      have e2 : getBits i (List.range d.n) = i.toNat := by
        apply Nat.eq_of_testBit_eq
        intro k
        rw [testBit_getBits]
        by_cases hk : k < d.n
        · rw [List.getElem?_eq_getElem (by simpa using hk)]
          simp [BitVec.getLsbD]
        · rw [List.getElem?_eq_none (by simp; omega)]
          exact (Nat.testBit_lt_two_pow (lt_of_lt_of_le hi (Nat.pow_le_pow_right (by norm_num) (by omega)))).symm
      rw [e, e2] at this
      exact this
    simp only [List.length_nil, pow_zero, Finset.range_one, Finset.sum_singleton]
    rw [hj _ hp.1, hj _ hp.2]
  · have h16 := h16.resolve_left hne
    have hr' := hr
    unfold DM.partialTrace at hr'
    rw [if_neg hne] at hr'
    by_cases hq : ∃ q ∈ qs, q ≥ d.n
    · rw [if_pos hq] at hr'; cases hr'
    push Not at hq
    obtain ⟨mask, hm, hr'⟩ := bind_ok (by rwa [if_neg (by push Not; exact hq)] at hr')
    have hnd := ((vectorToMask_ok_iff qs).1 ⟨mask, hm⟩).1
    obtain ⟨r', hr2, e1, e2, hrun⟩ := partialTrace_ok hn hne hnd hq h16
    rw [hr] at hr2
    cases hr2
    refine ⟨hnd, hq, h1.trans e1, h2.trans e2, fun p hp => ?_⟩
    rw [h1] at hp
    rw [MRuns.unique hM (hrun _)]
    dsimp only
    rw [if_pos hp]

end Verif.Proofs
