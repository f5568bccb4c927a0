import Verif.Proofs.Ensemble

/-! # The finitely many paths of a circuit and their probabilities -/

namespace Verif.Proofs
open Verif Verif.Spec Verif.Model Verif.Props MeasureTheory ProbabilityTheory
attribute [-simp] BitVec.getLsbD_eq_getElem

/-- the branch of a situation -/
def branchOf (s : Situation) : Branch := ⟨s.psi, s.reg⟩

open Classical in
/-- `outs` are the possible outcomes of a step described by `E` (draws used, result), with the intervals that lead to them -/
structure Decides (outs : List (List (ℝ × ℝ) × Situation)) (E : List ℝ → Situation → Prop) : Prop where
  inside : ∀ o ∈ outs, Inside o.1
  unique : ∀ (r : ℕ → ℝ), (∀ i, 0 ≤ r i ∧ r i < 1) → ∀ pos, ∃ o ∈ outs, ∃ us, E us o.2 ∧ us.length = o.1.length ∧
    (∀ i (hi : i < us.length), r (pos + i) = us[i]) ∧
    ∀ G : List (ℝ × ℝ) × Situation → ℂ, (outs.map fun o' => if Falls o'.1 r pos then G o' else 0).sum = G o

/-- what holds after a line -/
structure After (n : Nat) (l : Line) (s s' : Situation) : Prop where
  norm : normSq (2 ^ n) s'.psi = 1
  reg : s'.reg.length = s.reg.length
  meas : ∀ q ∈ s'.measured, q ∈ s.measured ∨ ∃ cbit, l.instr = .measure q cbit false

theorem line_paths {n : Nat} (hn : n < 64) {θ : String → Option ℝ} {l : Line} {s : Situation} (hl : LineOK n θ s.reg.length l)
    (hnorm : normSq (2 ^ n) s.psi = 1) (hfree : ∀ q ∈ s.measured, q ∉ l.instr.qubits) :
    ∃ outs, Decides outs (l.Effect n θ s) ∧ (∀ o ∈ outs, After n l s o.2) ∧
      ∀ D, Quadratic n D → (outs.map fun o => (extent o.1 : ℂ) * D (branchOf o.2)).sum = ((l.split n θ (branchOf s)).map D).sum := by
  classical
  obtain ⟨g, hg⟩ := hl.built
  have hcond : (l.CondIs s.reg true ∧ l.split n θ (branchOf s) = l.instr.split n θ (branchOf s)) ∨
      (l.CondIs s.reg false ∧ l.split n θ (branchOf s) = [branchOf s]) := by
    unfold Line.CondIs Line.split
    cases hc : l.cond with
    | none => exact Or.inl ⟨rfl, rfl⟩
    | some f =>
      obtain ⟨b, hb⟩ := hl.reg.2 f hc s.reg rfl
      dsimp only
      rw [show f (branchOf s).reg = .ok b from hb]
      cases b with
      | true => exact Or.inl ⟨hb, rfl⟩
      | false => exact Or.inr ⟨hb, rfl⟩
  rcases hcond with ⟨hc, hsplit⟩ | ⟨hc, hsplit⟩
  swap
  · refine ⟨[([], s)], ⟨by simp [Inside], fun r hr pos => ⟨_, List.mem_singleton_self _, [], .skip _ _ hc, rfl, by simp, ?_⟩⟩, ?_, ?_⟩
    · intro G; simp [falls_nil]
    · intro o ho
      obtain rfl := List.mem_singleton.1 ho
      exact ⟨hnorm, rfl, fun q h => Or.inl h⟩
    · intro D _; rw [hsplit]; simp [extent]
  rcases measure_or l.instr with hm | ⟨q, cb, rs, hm⟩
  · obtain ⟨hf, hw, hlen⟩ := alt_facts hg hl.ok (n := n) hl.unitary hl.keys hm
    have hsum := fair_weights hl.fair hm
    have hbound : ∀ k (hk : k < (l.instr.alternatives θ).length), normSq (2 ^ n) (onState (2 ^ n) (operatorOf (l.instr.alternatives θ)[k]) s.psi) = 1 := by
      intro k hk
      have hd := hf _ (List.getElem_mem hk)
      obtain ⟨u, hu⟩ := hd.built
      exact (norm_gate hd.ok hd.unitary hu hn (fun q hq => hl.qubits q (hd.qubits q hq)) _).trans hnorm
    let out : Nat × GateDesc → List (ℝ × ℝ) × Situation := fun x =>
      (if l.instr.random then [cut l.instr.weights x.1] else [], { s with psi := onState (2 ^ n) (operatorOf x.2) s.psi })
    let idx := (List.range (l.instr.alternatives θ).length).zip (l.instr.alternatives θ)
    have hidx : idx.length = (l.instr.alternatives θ).length := by simp [idx]
    have hget : ∀ k (hk : k < idx.length), idx[k] = (k, (l.instr.alternatives θ)[k]'(by omega)) := by intro k hk; simp [idx]
    refine ⟨idx.map out, ⟨?_, ?_⟩, ?_, ?_⟩
    · intro o ho
      obtain ⟨x, -, rfl⟩ := List.mem_map.1 ho
      intro p hp
      dsimp only [out] at hp
      split at hp
      · obtain rfl := List.mem_singleton.1 hp
        exact cut_inside hw hsum _
      · simp at hp
    · intro r hr pos
      obtain ⟨k, hk, h1, h2, huniq⟩ := cut_exists hw hsum (hr pos).1 (hr pos).2
      have hk' : k < idx.length := by omega
      refine ⟨out idx[k], List.mem_map.2 ⟨_, List.getElem_mem hk', rfl⟩, if l.instr.random then [r pos] else [], ?_, ?_, ?_, ?_⟩
      · rw [hget k hk']
        exact alt_effect hm hc hfree (by omega) hlen ⟨h1, h2⟩
      · dsimp only [out]; split <;> rfl
      · intro i hi
        split at hi
        · obtain rfl : i = 0 := by simpa using hi
          simp_all
        · simp at hi
      · intro G
        rw [List.map_map, sum_single hk']
        · refine if_pos ?_
          rw [hget k hk']
          dsimp only [out]
          split
          · rw [falls_one]; exact ⟨h1, h2⟩
          · exact falls_nil _ _
        · intro k' hk'' hne
          refine if_neg ?_
          rw [hget k' hk'']
          dsimp only [out]
          split
          · rw [falls_one]
            exact fun h => hne (huniq k' h.1 h.2)
          · rename_i hrand
            have := (single_alternative hl.keys hm (by simpa using hrand)).1
            omega
    · intro o ho
      obtain ⟨x, hx, rfl⟩ := List.mem_map.1 ho
      obtain ⟨k, hk, rfl⟩ := List.mem_iff_getElem.1 hx
      rw [hget k hk]
      exact ⟨hbound k (by omega), rfl, fun q h => Or.inl h⟩
    · intro D hD
      rw [hsplit, split_instr hm, List.map_map, List.map_map]
      congr 1
      refine List.ext_getElem (by simp [idx, hlen]) fun k hk1 hk2 => ?_
      have hk : k < idx.length := by simpa using hk1
      have hka : k < (l.instr.alternatives θ).length := by omega
      have hkw : k < l.instr.weights.length := by omega
      simp only [List.getElem_map, hget k hk, List.getElem_zip, Function.comp_apply]
      have hp : 0 ≤ l.instr.weights[k] := hw _ (List.getElem_mem hkw)
      have h1 := hD (Real.sqrt l.instr.weights[k] : ℂ) (fun j => (Real.sqrt l.instr.weights[k] : ℂ) *
        onState (2 ^ n) (operatorOf (l.instr.alternatives θ)[k]) s.psi j) (onState (2 ^ n) (operatorOf (l.instr.alternatives θ)[k]) s.psi) s.reg
        (fun j _ => rfl)
      have h2 : ((Complex.normSq (Real.sqrt l.instr.weights[k] : ℂ) : ℝ) : ℂ) = ((extent (out (k, (l.instr.alternatives θ)[k])).1 : ℝ) : ℂ) := by
        congr 1
        rw [Complex.normSq_ofReal, Real.mul_self_sqrt hp]
        dsimp only [out]
        split
        · simp only [extent, List.map_cons, List.map_nil, List.prod_cons, List.prod_nil, mul_one]
          rw [cut_length hkw]
        · rename_i hrand
          have := (single_alternative hl.keys hm (by simpa using hrand)).2
          simp only [this, extent]
          have hk0 : k = 0 := by rw [this] at hkw; simpa using hkw
          subst hk0
          simp
      rw [h2] at h1
      exact h1.symm
  · have hq := hl.qubits q (by rw [hm]; simp [Instr.qubits])
    have hcb : cb < s.reg.length := hl.reg.1 q cb rs hm
    have hadd := bitProb_add n s.psi q
    rw [hnorm] at hadd
    have hf0 := bitProb_nonneg n s.psi q false
    have ht0 := bitProb_nonneg n s.psi q true
    let out : Bool → List (ℝ × ℝ) × Situation := fun b =>
      ([if b then (bitProb n s.psi q false, 1) else (0, bitProb n s.psi q false)],
        ⟨onState (2 ^ n) (afterMeasurement n q b rs) s.psi, s.reg.set cb b, if rs then s.measured else q :: s.measured⟩)
    have hext : ∀ b, extent (out b).1 = bitProb n s.psi q b := by
      intro b
      cases b with
      | false => simp [out, extent]
      | true => simp only [out, extent]; simp; linarith
    have hafter : ∀ b, bitProb n s.psi q b ≠ 0 → After n l s (out b).2 := by
      intro b hb
      refine ⟨(C35_repeatable (by omega) hq b rs s.psi hb).1, by simp [out], ?_⟩
      intro p hp
      dsimp only [out] at hp
      cases rs with
      | true => exact Or.inl hp
      | false =>
        rcases List.mem_cons.1 (show p ∈ q :: s.measured from hp) with rfl | hp
        · exact Or.inr ⟨cb, hm⟩
        · exact Or.inl hp
    let bs := [false, true].filter fun b => decide (bitProb n s.psi q b ≠ 0)
    have hmem : ∀ b, b ∈ bs ↔ bitProb n s.psi q b ≠ 0 := by
      intro b
      simp only [bs, List.mem_filter, decide_eq_true_eq]
      exact ⟨fun h => h.2, fun h => ⟨by cases b <;> simp, h⟩⟩
    have hsumf : ∀ f : Bool → ℂ, (bs.map f).sum = (if bitProb n s.psi q false ≠ 0 then f false else 0) + if bitProb n s.psi q true ≠ 0 then f true else 0 := by
      intro f
      simp only [bs]
      by_cases h1 : bitProb n s.psi q false = 0 <;> by_cases h2 : bitProb n s.psi q true = 0 <;> simp [h1, h2]
    refine ⟨bs.map out, ⟨?_, ?_⟩, ?_, ?_⟩
    · intro o ho
      obtain ⟨b, -, rfl⟩ := List.mem_map.1 ho
      intro p hp
      obtain rfl := List.mem_singleton.1 hp
      cases b with
      | false => exact ⟨le_rfl, hf0, by simp; linarith⟩
      | true => exact ⟨hf0, by simp; linarith, le_rfl⟩
    · intro r hr pos
      obtain ⟨h1, h0⟩ := outcome_spec (q := q) hnorm (hr pos).1 (hr pos).2
      refine ⟨out (outcome n q s.psi (r pos)), List.mem_map.2 ⟨_, (hmem _).2 h0, rfl⟩, [r pos], ?_, rfl, ?_, ?_⟩
      · obtain ⟨ins, c⟩ := l
        subst hm
        exact .measure q cb rs c s (r pos) _ hc (fun h => hfree q h (by simp [Instr.qubits])) hcb h1 (by unfold outcome; simp) h0
      · intro i hi
        obtain rfl : i = 0 := by simpa using hi
        rfl
      · intro G
        rw [List.map_map, hsumf]
        simp only [Function.comp_apply, out, falls_one]
        unfold outcome at h0 ⊢
        have := hr pos
        by_cases hu : r pos < bitProb n s.psi q false
        · simp only [hu, decide_true, Bool.not_true] at h0 ⊢
          simp [this.1, hu, not_le.2 hu]
          exact fun h => absurd h h0
        · simp only [hu, decide_false, Bool.not_false] at h0 ⊢
          simp [this.2, hu, not_lt.1 hu]
          exact fun h => absurd h h0
    · intro o ho
      obtain ⟨b, hb, rfl⟩ := List.mem_map.1 ho
      exact hafter b ((hmem b).1 hb)
    · intro D hD
      have key : ∀ b, (if bitProb n s.psi q b ≠ 0 then (extent (out b).1 : ℂ) * D (branchOf (out b).2) else 0) =
          D ⟨onState (2 ^ n) (measured q b rs) s.psi, s.reg.set cb b⟩ := by
        intro b
        by_cases hb : bitProb n s.psi q b = 0
        · rw [if_neg (by simpa using hb)]
          have hz : ∀ j : U64, j.toNat < 2 ^ n → onState (2 ^ n) (measured q b rs) s.psi j = 0 * s.psi j := by
            intro j hj
            rw [show onState (2 ^ n) (measured q b rs) s.psi j = _ from if_pos hj, zero_mul]
            have hz' : ∀ j : U64, j.toNat < 2 ^ n → j.getLsbD q = b → s.psi j = 0 := by
              intro j hj hjb
              unfold bitProb at hb
              rw [Finset.sum_eq_zero_iff_of_nonneg (fun j _ => by split <;> [exact Complex.normSq_nonneg _; exact le_rfl])] at hb
              have := hb j ((mem_indices (pow64 (by omega))).2 hj)
              rw [if_pos hjb] at this
              exact Complex.normSq_eq_zero.1 this
            unfold measured
            split
            · split
              · refine hz' _ (setBit_lt (by omega) hq hj b) ?_
                rw [getLsbD_setBit _ (by omega), if_pos rfl]
              · rfl
            · split
              · exact hz' j hj (by assumption)
              · rfl
          have := hD 0 _ _ (s.reg.set cb b) hz
          rw [this]; simp
        · rw [if_pos hb, hext]
          have hp : 0 ≤ bitProb n s.psi q b := bitProb_nonneg n s.psi q b
          have hs : (Real.sqrt (bitProb n s.psi q b) : ℂ) ≠ 0 := by
            rw [Ne, Complex.ofReal_eq_zero, Real.sqrt_eq_zero hp]; exact hb
          have := hD (Real.sqrt (bitProb n s.psi q b) : ℂ) (onState (2 ^ n) (measured q b rs) s.psi)
            (onState (2 ^ n) (afterMeasurement n q b rs) s.psi) (s.reg.set cb b) (by
              intro j hj
              rw [show onState (2 ^ n) (measured q b rs) s.psi j = _ from if_pos hj,
                show onState (2 ^ n) (afterMeasurement n q b rs) s.psi j = _ from if_pos hj]
              unfold measured afterMeasurement
              split <;> split
              · field_simp
              · simp
              · field_simp
              · simp)
          rw [this, Complex.normSq_ofReal, Real.mul_self_sqrt hp]
          rfl
      rw [hsplit, hm, List.map_map, hsumf]
      simp only [Function.comp_apply]
      rw [key, key]
      simp [Instr.split, branchOf]

theorem circuit_paths {n : Nat} (hn : n < 64) {θ : String → Option ℝ} {ls : List Line} {ms : List Nat} (hcl : Clear ms ls)
    {s : Situation} (hl : ∀ l ∈ ls, LineOK n θ s.reg.length l) (hnorm : normSq (2 ^ n) s.psi = 1) (hms : ∀ q ∈ s.measured, q ∈ ms) :
    ∃ P, Decides P (fun us s' => ∃ uss : List (List ℝ), uss.flatten = us ∧ History n θ ls s uss s') ∧
      ∀ D, Quadratic n D → (P.map fun p => (extent p.1 : ℂ) * D (branchOf p.2)).sum = ((branches n θ ls (branchOf s)).map D).sum := by
  classical
  induction ls generalizing s ms with
  | nil =>
    refine ⟨[([], s)], ⟨by simp [Inside], fun r hr pos => ⟨_, List.mem_singleton_self _, [], ⟨[], rfl, .nil _⟩, rfl, by simp, ?_⟩⟩, ?_⟩
    · intro G; simp [falls_nil]
    · intro D _; simp [extent, branches]
  | cons l ls ih =>
    obtain ⟨hc1, hc2⟩ := hcl
    obtain ⟨outs, hdec, haft, hq⟩ := line_paths hn (hl l List.mem_cons_self) hnorm fun q h => hc1 q (hms q h)
    have hnext : ∀ o ∈ outs, ∃ P, Decides P (fun us s' => ∃ uss : List (List ℝ), uss.flatten = us ∧ History n θ ls o.2 uss s') ∧
        ∀ D, Quadratic n D → (P.map fun p => (extent p.1 : ℂ) * D (branchOf p.2)).sum = ((branches n θ ls (branchOf o.2)).map D).sum := by
      intro o ho
      have ha := haft o ho
      refine ih hc2 (fun x hx => ?_) ha.norm fun q hq => ?_
      · rw [ha.reg]; exact hl x (List.mem_cons_of_mem _ hx)
      · rcases ha.meas q hq with h | ⟨cb, h⟩
        · have := hms q h
          cases l.instr with
          | measure q' c' r' => cases r' <;> simp [this]
          | _ => exact this
        · rw [h]; simp
    choose! P hP1 hP2 using hnext
    refine ⟨outs.flatMap fun o => (P o).map fun p => (o.1 ++ p.1, p.2), ⟨?_, ?_⟩, ?_⟩
    · intro p hp
      obtain ⟨o, ho, hp⟩ := List.mem_flatMap.1 hp
      obtain ⟨p', hp', rfl⟩ := List.mem_map.1 hp
      intro x hx
      rcases List.mem_append.1 hx with h | h
      · exact hdec.inside o ho x h
      · exact (hP1 o ho).inside p' hp' x h
    · intro r hr pos
      obtain ⟨o, ho, us, he, hul, hud, hG⟩ := hdec.unique r hr pos
      obtain ⟨p, hp, vs, ⟨uss, hvs, hh⟩, hvl, hvd, hG'⟩ := (hP1 o ho).unique r hr (pos + o.1.length)
      refine ⟨(o.1 ++ p.1, p.2), List.mem_flatMap.2 ⟨o, ho, List.mem_map.2 ⟨p, hp, rfl⟩⟩, us ++ vs, ⟨us :: uss, by simp [hvs], .cons _ _ _ _ _ _ _ he hh⟩, ?_, ?_, ?_⟩
      · simp [hul, hvl]
      · intro i hi
        by_cases h : i < us.length
        · rw [List.getElem_append_left h]; exact hud i h
        · rw [List.getElem_append_right (by omega)]
          have := hvd (i - us.length) (by rw [List.length_append] at hi; omega)
          rwa [← hul, Nat.add_assoc, Nat.add_sub_cancel' (by omega)] at this
      · intro G
        rw [sum_flatMap]
        have := hG fun o' => ((P o').map fun p => if Falls p.1 r (pos + o'.1.length) then G (o'.1 ++ p.1, p.2) else 0).sum
        rw [show G (o.1 ++ p.1, p.2) = ((P o).map fun p => if Falls p.1 r (pos + o.1.length) then G (o.1 ++ p.1, p.2) else 0).sum from
          (hG' fun p => G (o.1 ++ p.1, p.2)).symm, ← this]
        congr 1
        refine List.map_congr_left fun o' _ => ?_
        rw [List.map_map]
        by_cases hf : Falls o'.1 r pos
        · rw [if_pos hf]
          congr 1
          refine List.map_congr_left fun p' _ => ?_
          simp only [Function.comp_apply, falls_append, hf, true_and]
        · rw [if_neg hf]
          simp only [Function.comp_def, falls_append, hf, false_and, if_false]
          simp
    · intro D hD
      rw [sum_flatMap, branches, sum_flatMap]
      have hD' := quadratic_branches hn (fun x hx => hl x (List.mem_cons_of_mem _ hx)) hD
      rw [← hq _ hD']
      congr 1
      refine List.map_congr_left fun o ho => ?_
      rw [← hP2 o ho D hD, ← List.sum_map_mul_left, List.map_map]
      congr 1
      refine List.map_congr_left fun p _ => ?_
      simp only [Function.comp_apply, extent_append]
      push_cast
      ring

end Verif.Proofs
