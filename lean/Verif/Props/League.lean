import Verif.Proofs.League
import Verif.Props.Gates

/-! # C82: gates on very large states -/

namespace Verif.Props
open Verif Verif.Spec Verif.Model Verif.Proofs
attribute [-simp] BitVec.getLsbD_eq_getElem

/-- `update_quantum_state` of `g`, with its league sizes as `int`, succeeds and under every schedule changes the state by `f` -/
def PerformsLarge (g : UGate) (L B n : Nat) (f : (U64 → ℂ) → U64 → ℂ) : Prop :=
  ∃ dev, g.updateLeague L B n = .ok dev ∧ ∀ ψ, DRuns (B * 2 ^ n) dev ψ (onState (B * 2 ^ n) f ψ)

/-- the number of amplitudes of `B` states of `n` qubits, divided by `2` to the number of qubits of the gate, is below `2 ^ 31` -/
def FewGroups (d : GateDesc) (B n : Nat) : Prop := B * 2 ^ (n - (qubitsOf d).length) < 2 ^ 31

theorem map_fst_ctrlList {cs vs : List Nat} {ts : List Nat} {o : Operands} (h : mkOperands ts cs vs = .ok o) :
    (ctrlList cs vs).map Prod.fst = cs := by
  obtain ⟨-, -, -, -, -, hlen, -⟩ := mkOperands_ok h
  unfold ctrlList
  rw [List.map_map, show (Prod.fst ∘ fun p : Nat × Nat => (p.1, p.2 == 1)) = Prod.fst from rfl, List.map_fst_zip]
  omega

theorem teams_of {d : GateDesc} {ts cs vs : List Nat} {o : Operands} (hmk : mkOperands ts cs vs = .ok o)
    (ht : targetsOf d = ts) (hc : controlsOf d = ctrlList cs vs) {B n : Nat} (hn : n < 64) (hq : ∀ q ∈ qubitsOf d, q < n) :
    workItems (B * 2 ^ n) (o.t ||| o.c) = B * 2 ^ (n - (qubitsOf d).length) := by
  have e : qubitsOf d = ts ++ cs := by rw [qubitsOf, ht, hc, map_fst_ctrlList hmk]
  rw [teams_eq hmk hn fun q h => hq q (by rw [e]; simpa using h), e, List.length_append]

/-- **C82.** On states that are small enough, or for gates that are no matrix gates on three or more qubits and no sparse
gates, the models with and without the conversion of the league size agree. -/
theorem C82_agree {d : GateDesc} {g : UGate} (h : d.build = .ok g) (hd : DescOK d) {L B n : Nat} (hn : n < 64)
    (hq : ∀ q ∈ qubitsOf d, q < n) (hs : SmallMatrix d ∨ FewGroups d B n) :
    g.updateLeague L B n = g.update L B n := by
  cases g with
  | dense dg =>
    cases d with
    | dense ts M cs vs u =>
      obtain ⟨dg, hdg, h⟩ := bind_ok h
      cases h
      obtain ⟨hmk, hr, hcl, hr', hc', -, -⟩ := mkDense_ok hdg
      show denseUpdateLeague L B n dg.mat dg.o = denseUpdate L B n dg.mat dg.o
      unfold denseUpdateLeague denseUpdate
      rcases hs with hs | hs
      · have h2 : ts.length ≤ 2 := hs
        have : ts.length = 0 ∨ ts.length = 1 ∨ ts.length = 2 := by omega
        rcases this with e | e | e <;> simp [hr', hc', e]
      · have hw : workItems (B * 2 ^ n) (dg.o.t ||| dg.o.c) < 2 ^ 31 := by
          rw [teams_of hmk rfl rfl hn hq]; exact hs
        simp only [teams_small hw]
        rfl
    | ident => cases h
    | _ => obtain ⟨x, -, h⟩ := bind_ok h; cases h
  | sparse sg =>
    cases d with
    | sparse ts S cs vs =>
      obtain ⟨sg, hsg, h⟩ := bind_ok h
      cases h
      obtain ⟨hmk, -⟩ := mkSparse_ok hd hsg
      rcases hs with hs | hs
      · exact hs.elim
      · have hw : workItems (B * 2 ^ n) (sg.o.t ||| sg.o.c) < 2 ^ 31 := by
          rw [teams_of hmk rfl rfl hn hq]; exact hs
        show sparseUpdateLeague B n sg.mat sg.o = sparseUpdate B n sg.mat sg.o
        unfold sparseUpdateLeague sparseUpdate
        simp only [teams_small_sparse hw]
    | ident => cases h
    | _ => obtain ⟨x, -, h⟩ := bind_ok h; cases h
  | _ => rfl

/-- **C82** with what is missing: every gate acts as its matrix, if the state is small enough or the gate is no matrix gate on
three or more qubits and no sparse gate.  Missing: larger states, see `C82_wiped`, `C82_negative`. -/
theorem C82_partial {d : GateDesc} {g : UGate} (h : d.build = .ok g) (hd : DescOK d) {L B n : Nat} (hf : Fits L B n)
    (hq : ∀ q ∈ qubitsOf d, q < n) (hs : SmallMatrix d ∨ FewGroups d B n) :
    PerformsLarge g L B n (operatorOf d) := by
  obtain ⟨dev, hdev, hr⟩ := performs_of_build hd h hf hq
  exact ⟨dev, by rw [C82_agree h hd hf.qubits hq hs]; exact hdev, hr⟩

/-- the matrix kernels: dense gates on three or more qubits and sparse gates -/
def BigMatrix : GateDesc → Prop
  | .dense ts _ _ _ _ => 3 ≤ ts.length
  | .sparse _ _ _ _ => True
  | _ => False

/-- the launch of the matrix kernels depends on the league size only -/
theorem big_launch {d : GateDesc} {g : UGate} (h : d.build = .ok g) (hd : DescOK d) {L B n : Nat} (hf : Fits L B n)
    (hq : ∀ q ∈ qubitsOf d, q < n) (hb : BigMatrix d) :
    ∃ (t c v : U64) (k : Nat) (rows : Fin k → List (ℂ × Nat)), (∀ j : U64, j &&& c = v ↔ CtrlOK (controlsOf d) j) ∧
      g.updateLeague L B n = (leagueSize (B * 2 ^ (n - (qubitsOf d).length)) >>= fun teams =>
        .ok (.outOfPlace (B * 2 ^ n) teams k (outOfPlaceInit c v (B * 2 ^ n)) (outOfPlaceTeams n t c v k rows teams))) := by
  cases d with
  | dense ts M cs vs u =>
    obtain ⟨dg, hdg, h⟩ := bind_ok h
    cases h
    obtain ⟨hmk, hr, hcl, hr', hc', -, -⟩ := mkDense_ok hdg
    obtain ⟨tn, tl, -, -, -, -, -, tb, -⟩ := mkOperands_ok hmk
    have hp := popcount_length ⟨tn, tl⟩ tb
    have h3 : 8 ≤ 2 ^ ts.length := by
      have : 3 ≤ ts.length := hb
      calc 8 = 2 ^ 3 := by norm_num
        _ ≤ _ := Nat.pow_le_pow_right (by norm_num) this
    have hck : checkWithinBounds dg.o n = .ok () := (checkWithinBounds_ok_iff hf.qubits hmk).2 (by
      intro q h
      exact hq q (by rw [qubitsOf, targetsOf, controlsOf, map_fst_ctrlList hmk]; simpa using h))
    refine ⟨dg.o.t, dg.o.c, dg.o.v, 2 ^ popcount dg.o.t,
      fun r => (List.range (2 ^ popcount dg.o.t)).map fun s => (dg.mat.entry r.val s, s), ctrl_mask_iff hmk, ?_⟩
    show denseUpdateLeague L B n dg.mat dg.o = _
    unfold denseUpdateLeague
    rw [hck, ok_bind, if_neg (by omega), if_neg (by omega), if_neg (by omega), if_pos (by rw [hp]; omega)]
    unfold multiDenseLeague
    rw [teams_of hmk rfl rfl hf.qubits hq]
    rfl
  | sparse ts S cs vs =>
    obtain ⟨sg, hsg, h⟩ := bind_ok h
    cases h
    obtain ⟨hmk, m, hm, hgm, -⟩ := mkSparse_ok hd hsg
    have hck : checkWithinBounds sg.o n = .ok () := (checkWithinBounds_ok_iff hf.qubits hmk).2 (by
      intro q h
      exact hq q (by rw [qubitsOf, targetsOf, controlsOf, map_fst_ctrlList hmk]; simpa using h))
    refine ⟨sg.o.t, sg.o.c, sg.o.v, _, fun r => (m.stored.map fun row => row.map fun p => (p.2, p.1))[r.val],
      ctrl_mask_iff hmk, ?_⟩
    show sparseUpdateLeague B n sg.mat sg.o = _
    unfold sparseUpdateLeague
    rw [hck, ok_bind]
    unfold sparseKernelLeague
    rw [teams_of hmk rfl rfl hf.qubits hq, hgm, csr_rows]
    rfl
  | _ => exact hb.elim

/-- with `2 ^ 32` groups or a multiple of it the kernel has no teams: every amplitude selected by the controls becomes zero,
whatever the matrix -/
theorem C82_wiped {d : GateDesc} {g : UGate} (h : d.build = .ok g) (hd : DescOK d) {L B n : Nat} (hf : Fits L B n)
    (hq : ∀ q ∈ qubitsOf d, q < n) (hb : BigMatrix d) (h32 : (qubitsOf d).length + 32 ≤ n) :
    PerformsLarge g L B n (fun ψ j => if CtrlOK (controlsOf d) j then 0 else ψ j) := by
  obtain ⟨t, c, v, k, rows, hcv, hu⟩ := big_launch h hd hf hq hb
  rw [leagueSize_zero _ _ (by omega), ok_bind] at hu
  refine ⟨_, hu, fun ψ => ?_⟩
  have := no_teams (n := n) (t := t) (c := c) (v := v) hf.size rows ψ
  convert this using 1
  funext j
  unfold onState
  by_cases hj : InState (B * 2 ^ n) j
  · rw [if_pos (show j.toNat < _ from hj)]
    simp only [hj, true_and, hcv]
  · rw [if_neg (show ¬ j.toNat < _ from hj), if_neg fun h => hj h.1]

/-- with `2 ^ 31` groups of an odd number of states the league size is negative -/
theorem C82_negative {d : GateDesc} {g : UGate} (h : d.build = .ok g) (hd : DescOK d) {L B n : Nat} (hf : Fits L B n)
    (hq : ∀ q ∈ qubitsOf d, q < n) (hb : BigMatrix d) (h31 : n = (qubitsOf d).length + 31) (hB : B % 2 = 1) :
    ∃ msg, g.updateLeague L B n = .error (.ub msg) := by
  obtain ⟨t, c, v, k, rows, hcv, hu⟩ := big_launch h hd hf hq hb
  rw [show n - (qubitsOf d).length = 31 by omega, leagueSize_negative hB] at hu
  exact ⟨_, hu⟩

/-- the identity matrix of three qubits -/
noncomputable def idMat8 : DMat ℂ := ⟨8, 8, fun r s => if r = s then 1 else 0⟩

theorem idGate_exists : ∃ g, (GateDesc.dense [0, 1, 2] idMat8 [] [] true).build = .ok g := by
  obtain ⟨o, ho⟩ := operands_exist (ts := [0, 1, 2]) (cs := []) (vs := []) (by simp) (by simp) (by simp)
    (by simp) (by simp) (by simp [effectiveValues]) (by simp [effectiveValues])
  exact build_dense (u := true) ho (by simp) rfl rfl

/-- **C82 fails**: the identity as a dense gate on three of 35 qubits turns every state into zero, and on three of 34 qubits it
launches a kernel with a negative league size. -/
theorem C82_counterexample : ∃ (d : GateDesc) (g : UGate), d.build = .ok g ∧ DescOK d ∧ Fits 0 1 35 ∧ (∀ q ∈ qubitsOf d, q < 34) ∧
    (∀ ψ, operatorOf d ψ = ψ) ∧ PerformsLarge g 0 1 35 (fun _ _ => 0) ∧ ∃ msg, g.updateLeague 0 1 34 = .error (.ub msg) := by
  obtain ⟨g, hg⟩ := idGate_exists
  have hf : Fits 0 1 35 := ⟨Or.inl rfl, by norm_num, by norm_num⟩
  have hf' : Fits 0 1 34 := ⟨Or.inl rfl, by norm_num, by norm_num⟩
  have hq : qubitsOf (.dense [0, 1, 2] idMat8 [] [] true) = [0, 1, 2] := by
    simp [qubitsOf, targetsOf, controlsOf, ctrlList]
  refine ⟨_, g, hg, trivial, hf, by rw [hq]; simp, ?_, ?_, ?_⟩
  · intro ψ
    funext j
    have hT : TargetsOK [0, 1, 2] := ⟨by simp, by simp⟩
    show applyMat [0, 1, 2] idMat8.entry (ctrlList [] []) ψ j = ψ j
    rw [applyMat, if_pos (by simp [CtrlOK, ctrlList]), Finset.sum_eq_single (getBits j [0, 1, 2])]
    · rw [putBits_getBits j hT]; simp [idMat8]
    · intro x _ hx; simp [idMat8, Ne.symm hx]
    · intro hx; exact absurd (Finset.mem_range.2 (getBits_lt j [0, 1, 2])) hx
  · have := C82_wiped hg trivial hf (by rw [hq]; simp) (show 3 ≤ 3 by norm_num) (by rw [hq]; simp)
    simpa [controlsOf, ctrlList, CtrlOK] using this
  · exact C82_negative hg trivial hf' (by rw [hq]; simp) (show 3 ≤ 3 by norm_num) (by rw [hq]; rfl) (by norm_num)

/-- non-trivial case of the hypotheses: a batch of five states of 30 qubits, three targets and a control -/
example (M : DMat ℂ) (hr : M.rows = 8) (hc : M.cols = 8) : ∃ g, (GateDesc.dense [4, 1, 3] M [0] [0] false).build = .ok g ∧
    DescOK (.dense [4, 1, 3] M [0] [0] false) ∧ Fits 8 5 30 ∧ (∀ q ∈ qubitsOf (.dense [4, 1, 3] M [0] [0] false), q < 30) ∧
    FewGroups (.dense [4, 1, 3] M [0] [0] false) 5 30 ∧ BigMatrix (.dense [4, 1, 3] M [0] [0] false) := by
  obtain ⟨o, ho⟩ := operands_exist (ts := [4, 1, 3]) (cs := [0]) (vs := [0]) (by simp) (by simp) (by simp)
    (by simp) (by simp) (by simp [effectiveValues]) (by simp [effectiveValues])
  obtain ⟨g, hg⟩ := build_dense (u := false) ho (by simp) hr hc
  refine ⟨g, hg, trivial, ⟨Or.inr ⟨3, by norm_num, by norm_num⟩, by norm_num, by norm_num⟩, ?_, ?_, ?_⟩
  · simp [qubitsOf, targetsOf, controlsOf, ctrlList, effectiveValues]
  · simp [FewGroups, qubitsOf, targetsOf, controlsOf, ctrlList, effectiveValues]
  · show 3 ≤ 3; norm_num

end Verif.Props
