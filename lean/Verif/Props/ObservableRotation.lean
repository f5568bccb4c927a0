import Verif.Proofs.Rotation
import Verif.Props.Circuit
import Verif.Props.Operator

/-! # C66: rotations by an observable (and C12: Pauli rotations are exponentials)

`add_observable_rotation_gate(H, angle, r)` appends `r` times a Pauli rotation by `angle / r` for every term of `H`.  `IsExp`
(`Spec/Exponential.lean`) is the exponential series. -/

namespace Verif.Props
open Verif Verif.Spec Verif.Model Verif.Proofs
attribute [-simp] BitVec.getLsbD_eq_getElem

/-- the exponential series of a sum of Pauli operators converges for every state, and determines the amplitudes of the state -/
theorem isExp_unique {ts : List PauliOp} {n : Nat} (hn : n ≤ 63) (hx : ∀ q ∈ ts, q.x.toNat < 2 ^ n) (z : ℂ) (ψ : U64 → ℂ) :
    (∃ φ, IsExp n z (sumOperator ts) ψ φ) ∧
    ∀ φ χ, IsExp n z (sumOperator ts) ψ φ → IsExp n z (sumOperator ts) ψ χ → ∀ j : U64, j.toNat < 2 ^ n → φ j = χ j := by
  constructor
  · exact ⟨unvec (NormedSpace.exp (z • opC n ts) (vec n ψ)), (isExp_iff hn hx z ψ _).2 (vec_unvec hn _)⟩
  · intro φ χ h1 h2 j hj
    exact (h1 j hj).unique (h2 j hj)

/-- **C12.** The state after a Pauli rotation (`C12_pauli_rotation`, no controls) is `exp(-i angle/2 P) ψ`. -/
theorem C12_exponential {p : PauliOp} {n : Nat} (hn : n ≤ 63) (hp : PauliFits p n) (angle : ℝ) (ψ : U64 → ℂ) :
    IsExp n (-(Complex.I * angle / 2)) (pauliOperator p) ψ (fun j =>
      Complex.cos (angle * p.coef / 2) * ψ j - Complex.I * Complex.sin (angle * p.coef / 2) * pauliOperator ⟨1, p.x, p.z⟩ ψ j) := by
  have e : pauliOperator p = sumOperator [p] := by funext ψ j; simp [sumOperator]
  have hx := (fits_masks hp).1
  rw [e, isExp_iff hn (by simpa using hx), exp_pauli hn hx, ContinuousLinearMap.sub_apply, ContinuousLinearMap.smul_apply,
    ContinuousLinearMap.smul_apply, ← vec_opC hn (by simpa using hx), opC_one, ← pauliOperator_eq, ContinuousLinearMap.one_apply]
  ext i
  simp

/-- a Pauli operator with a controlled number of qubits -/
example : PauliFits ⟨3, 0b01, 0b11⟩ 2 := by
  unfold PauliFits
  rw [show pauliQubits ⟨3, 0b01, 0b11⟩ = [0, 1] from by simp only [pauliQubits]; decide]
  simp

/-! ## the operator of an appended gate -/

theorem pauliRot_builds (p : PauliOp) (θ : ℝ) : ∃ g, (GateDesc.pauliRot p θ [] []).build = .ok g := by
  obtain ⟨o, ho⟩ := operands_exist (ts := p.targetList) (cs := []) (vs := []) (maskToVector_nodup _)
    (fun q hq => maskToVector_lt hq) (by simp) (by simp) (by simp) rfl (by simp [effectiveValues])
  obtain ⟨g, hg⟩ := build_pauli ho
  exact ⟨.pauliRot g θ, by simp only [GateDesc.build, hg, ok_bind]; rfl⟩

theorem pauliRot_qubits (p : PauliOp) (θ : ℝ) : qubitsOf (.pauliRot p θ [] []) = pauliQubits p := by
  simp [qubitsOf, targetsOf, controlsOf, ctrlList]

theorem vec_pauliRot {p : PauliOp} {n : Nat} (hn : n ≤ 63) (hp : PauliFits p n) (angle : ℝ) (ψ : U64 → ℂ) :
    vec n (onState (2 ^ n) (operatorOf (.pauliRot p angle [] [])) ψ) =
      NormedSpace.exp ((-(Complex.I * angle / 2)) • opC n [p]) (vec n ψ) := by
  obtain ⟨g, hg⟩ := pauliRot_builds p angle
  have hf : Fits 0 1 n := ⟨Or.inl rfl, by omega, by
    rw [Nat.one_mul]; exact Nat.pow_le_pow_right (by norm_num) (by omega)⟩
  obtain ⟨d1, hd1, h1⟩ := C12_pauli_rotation hg hf hp (by simp)
  obtain ⟨d2, hd2, h2⟩ := build_update (L := 0) (B := 1) (n := n) (by trivial) hg (Or.inl rfl) (by omega) hf.size
    (by rw [pauliRot_qubits]; exact hp)
  rw [hd1] at hd2
  cases hd2
  have := DRuns.unique (h2 ψ) (h1 ψ)
  rw [Nat.one_mul] at this
  have hx := (fits_masks hp).1
  rw [this, vec_onState hn]
  have hE := (isExp_iff hn (ts := [p]) (by simpa using hx) _ ψ _).1 (by
    have := C12_exponential hn hp angle ψ
    rwa [show pauliOperator p = sumOperator [p] by funext ψ j; simp [sumOperator]] at this)
  rw [← hE]
  congr 1

/-! ## C66 -/

/-- **C66.** The call throws exactly when the Hermitian flag is not set or the number of repetitions is not positive. -/
theorem C66_rejects (C : Circuit) (obs : Op) (angle : ℝ) (r : Int) :
    (obs.hermitian = false ∨ r ≤ 0 → ∃ e, C.addObservableRotation obs angle r = .error (.throw e)) ∧
    (obs.hermitian = true → 0 < r → ∃ D, C.addObservableRotation obs angle r = .ok D) := by
  unfold Circuit.addObservableRotation
  constructor
  · intro h
    by_cases hh : obs.hermitian = false
    · exact ⟨_, if_pos hh⟩
    · rw [if_neg hh, if_pos (h.resolve_left hh)]
      exact ⟨_, rfl⟩
  · intro hh hr
    rw [if_neg (by rw [hh]; simp), if_neg (by omega)]
    split
    · exact ⟨C, rfl⟩
    · have inner : ∀ (ts : List PauliOp) (θ : ℝ) (C : Circuit), ∃ D, ts.foldlM (fun C p => do
          let g ← GateDesc.build (.pauliRot p θ [] [])
          pure (C.addGate (.det g))) C = (.ok D : Res Circuit) := by
        intro ts θ
        induction ts with
        | nil => intro C; exact ⟨C, rfl⟩
        | cons p ts ih =>
          intro C
          obtain ⟨g, hg⟩ := pauliRot_builds p θ
          rw [List.foldlM_cons, hg]
          exact ih _
      generalize List.range r.toNat = l
      generalize angle / (r : ℝ) = θ
      induction l generalizing C with
      | nil => exact ⟨C, rfl⟩
      | cons i l ih =>
        obtain ⟨D, hD⟩ := inner obs.terms θ C
        rw [List.foldlM_cons, hD]
        exact ih D

/-- **C66.** Below the threshold of the angle the circuit stays as it is. -/
theorem C66_tiny (C : Circuit) {obs : Op} {angle : ℝ} {r : Int} (hh : obs.hermitian = true) (hr : 0 < r) (ha : |angle| < 1 / 10 ^ 12) :
    C.addObservableRotation obs angle r = .ok C := by
  unfold Circuit.addObservableRotation
  rw [if_neg (by rw [hh]; simp), if_neg (by omega), if_pos ha]

theorem addLine_gate {C : Circuit} {d : GateDesc} {g : UGate} (h : d.build = .ok g) :
    addLine C ⟨.gate d, none⟩ = .ok (C.addGate (.det g)) := by
  unfold addLine
  show (do let g ← (do let g ← d.build; pure (Sum.inl (Gate.det g)) : Res Item); _) = _
  rw [h]
  rfl

/-- **C66.** Otherwise the rotations are appended: `r` times one rotation by `angle / r` per term, in the order of the terms. -/
theorem C66_appends {ls : List Line} {C : Circuit} {n : Nat} (h : CircuitOf ls C n) {obs : Op} (ho : OpFits obs n)
    (hh : obs.hermitian = true) {angle : ℝ} {r : Int} (hr : 0 < r) (ha : 1 / 10 ^ 12 ≤ |angle|) :
    ∃ D, C.addObservableRotation obs angle r = .ok D ∧ CircuitOf (ls ++ trotterLines obs.terms angle r.toNat) D n := by
  have hmem : ∀ l ∈ trotterLines obs.terms angle r.toNat, ∃ p ∈ obs.terms, l = ⟨.gate (.pauliRot p (angle / r.toNat) [] []), none⟩ := by
    intro l hl
    obtain ⟨m, hm, hl⟩ := List.mem_flatten.1 hl
    obtain ⟨-, rfl⟩ := List.mem_replicate.1 hm
    obtain ⟨p, hp, rfl⟩ := List.mem_map.1 hl
    exact ⟨p, hp, rfl⟩
  have hrr : ((r.toNat : ℕ) : ℝ) = (r : ℝ) := by
    have : ((r.toNat : ℕ) : Int) = r := Int.toNat_of_nonneg hr.le
    exact_mod_cast congrArg (fun x : Int => (x : ℝ)) this
  have hfold : C.addObservableRotation obs angle r = (trotterLines obs.terms angle r.toNat).foldlM addLine C := by
    unfold Circuit.addObservableRotation trotterLines
    rw [if_neg (by rw [hh]; simp), if_neg (by omega), if_neg (by push Not; exact ha), hrr]
    have inner : ∀ (ts : List PauliOp) (θ : ℝ) (C : Circuit), ts.foldlM (fun C p => do
        let g ← GateDesc.build (.pauliRot p θ [] [])
        pure (C.addGate (.det g))) C = ((ts.map fun p => (⟨.gate (.pauliRot p θ [] []), none⟩ : Line)).foldlM addLine C : Res Circuit) := by
      intro ts θ
      induction ts with
      | nil => intro C; rfl
      | cons p ts ih =>
        intro C
        obtain ⟨g, hg⟩ := pauliRot_builds p θ
        rw [List.foldlM_cons, List.map_cons, List.foldlM_cons, hg, addLine_gate hg, ok_bind, ok_bind]
        exact ih _
    have outer : ∀ (k : ℕ) (l : List ℕ) (C : Circuit), l.length = k → l.foldlM (fun C _ => obs.terms.foldlM (fun C p => do
        let g ← GateDesc.build (.pauliRot p (angle / r) [] [])
        pure (C.addGate (.det g))) C) C =
        ((List.replicate k (obs.terms.map fun p => (⟨.gate (.pauliRot p (angle / r) [] []), none⟩ : Line))).flatten.foldlM addLine C :
          Res Circuit) := by
      intro k
      induction k with
      | zero => intro l C hl; rw [List.length_eq_zero_iff] at hl; subst hl; rfl
      | succ k ih =>
        intro l C hl
        obtain ⟨i, l, rfl⟩ := List.exists_cons_of_length_eq_add_one hl
        rw [List.foldlM_cons, inner, List.replicate_succ, List.flatten_cons, List.foldlM_append]
        congr 1
        funext C'
        exact ih l C' (by simpa using hl)
    exact outer _ _ C (List.length_range)
  obtain ⟨D, hD⟩ := (C66_rejects C obs angle r).2 hh hr
  refine ⟨D, hD, ?_, ?_, ?_⟩
  · unfold buildCircuit
    have := h.built
    unfold buildCircuit at this
    rw [List.foldlM_append, this, ok_bind, ← hfold, hD]
  · intro l hl
    rcases List.mem_append.1 hl with hl | hl
    · exact h.args l hl
    · obtain ⟨p, -, rfl⟩ := hmem l hl
      trivial
  · intro l hl q hq
    rcases List.mem_append.1 hl with hl | hl
    · exact h.qubits l hl q hq
    · obtain ⟨p, hp, rfl⟩ := hmem l hl
      exact ho p hp q (by rw [← pauliRot_qubits p (angle / r.toNat)]; exact hq)

/-! ### what the appended gates do -/

theorem gates_history {n : Nat} {θ : String → Option ℝ} {ds : List GateDesc} (ψ : U64 → ℂ) (reg : List Bool) {ms : List Nat}
    (hm : ∀ q ∈ ms, ∀ d ∈ ds, q ∉ qubitsOf d) : History n θ (ds.map fun d => (⟨.gate d, none⟩ : Line)) ⟨ψ, reg, ms⟩ (ds.map fun _ => [])
      ⟨ds.foldl (fun φ d => onState (2 ^ n) (operatorOf d) φ) ψ, reg, ms⟩ := by
  induction ds generalizing ψ with
  | nil => exact History.nil _
  | cons d ds ih =>
    exact History.cons _ _ _ _ _ _ _ (Line.Effect.gate d none ⟨ψ, reg, ms⟩ rfl (fun q hq => hm q hq d List.mem_cons_self))
      (ih _ fun q hq d' hd' => hm q hq d' (List.mem_cons_of_mem _ hd'))

/-- the gates of `trotterLines` -/
noncomputable def trotterGates (ts : List PauliOp) (angle : ℝ) (r : Nat) : List GateDesc :=
  (List.replicate r (ts.map fun p => GateDesc.pauliRot p (angle / r) [] [])).flatten

theorem trotterLines_eq (ts : List PauliOp) (angle : ℝ) (r : Nat) :
    trotterLines ts angle r = (trotterGates ts angle r).map fun d => (⟨.gate d, none⟩ : Line) := by
  unfold trotterLines trotterGates
  rw [List.map_flatten, List.map_replicate, List.map_map]
  rfl

theorem vec_step {n : Nat} (hn : n ≤ 63) {ts : List PauliOp} (hp : ∀ p ∈ ts, PauliFits p n) (θ : ℝ) (ψ : U64 → ℂ) :
    vec n ((ts.map fun p => GateDesc.pauliRot p θ [] []).foldl (fun φ d => onState (2 ^ n) (operatorOf d) φ) ψ) =
      stepC n (-(Complex.I * θ / 2)) ts (vec n ψ) := by
  induction ts generalizing ψ with
  | nil => rfl
  | cons p ts ih =>
    rw [List.map_cons, List.foldl_cons, ih (fun q hq => hp q (List.mem_cons_of_mem _ hq)), vec_pauliRot hn (hp p List.mem_cons_self),
      stepC_cons]
    rfl

theorem vec_steps {n : Nat} (hn : n ≤ 63) {ts : List PauliOp} (hp : ∀ p ∈ ts, PauliFits p n) (θ : ℝ) (k : ℕ) (ψ : U64 → ℂ) :
    vec n ((List.replicate k (ts.map fun p => GateDesc.pauliRot p θ [] [])).flatten.foldl (fun φ d => onState (2 ^ n) (operatorOf d) φ) ψ) =
      (stepC n (-(Complex.I * θ / 2)) ts ^ k) (vec n ψ) := by
  induction k generalizing ψ with
  | zero => rfl
  | succ k ih =>
    rw [List.replicate_succ, List.flatten_cons, List.foldl_append, ih, vec_step hn hp, pow_succ]
    rfl

/-- the run of the extended circuit -/
theorem rotation_run {ls : List Line} {C : Circuit} {n : Nat} (h : CircuitOf ls C n) {obs : Op} (ho : OpFits obs n)
    (hh : obs.hermitian = true) {angle : ℝ} {r : Int} (hr : 0 < r) (ha : 1 / 10 ^ 12 ≤ |angle|) {L : Nat} (hL : LanesOK L) (hn : n ≤ 63)
    {θ : String → Option ℝ} (hk : KeysGiven ls θ) {ψ ψ1 : U64 → ℂ} {reg reg1 : List Bool} {ms : List Nat} {uss : List (List ℝ)}
    (h1 : History n θ ls ⟨ψ, reg, []⟩ uss ⟨ψ1, reg1, ms⟩) (hms : ∀ q ∈ ms, ∀ p ∈ obs.terms, q ∉ pauliQubits p)
    {rnd : Nat → ℝ} (hd : Draws rnd uss.flatten) :
    ∃ D φ, C.addObservableRotation obs angle r = .ok D ∧
      vec n φ = (stepC n (-(Complex.I * ((angle / r.toNat : ℝ) : ℂ) / 2)) obs.terms ^ r.toNat) (vec n ψ1) ∧
      ∀ c f, D.RunsOn L n rnd θ ψ reg c f ↔ c = ⟨φ, reg1, uss.flatten.length⟩ ∧ f = none := by
  obtain ⟨D, hD, hC⟩ := C66_appends h ho hh hr ha
  refine ⟨D, _, hD, vec_steps hn ho (angle / r.toNat) r.toNat ψ1, ?_⟩
  have hmem : ∀ d ∈ trotterGates obs.terms angle r.toNat, ∃ p ∈ obs.terms, d = .pauliRot p (angle / r.toNat) [] [] := by
    intro l hl
    obtain ⟨m, hm, hl⟩ := List.mem_flatten.1 hl
    obtain ⟨-, rfl⟩ := List.mem_replicate.1 hm
    obtain ⟨p, hp, rfl⟩ := List.mem_map.1 hl
    exact ⟨p, hp, rfl⟩
  have h2 := gates_history (n := n) (θ := θ) (ds := trotterGates obs.terms angle r.toNat) ψ1 reg1 (ms := ms) (by
    intro q hq d hd
    obtain ⟨p, hp, rfl⟩ := hmem d hd
    rw [pauliRot_qubits]
    exact hms q hq p hp)
  rw [← trotterLines_eq] at h2
  have hfl : (uss ++ (trotterGates obs.terms angle r.toNat).map fun _ => ([] : List ℝ)).flatten = uss.flatten := by
    rw [List.flatten_append]
    have : ((trotterGates obs.terms angle r.toNat).map fun _ => ([] : List ℝ)).flatten = [] := by
      rw [List.flatten_eq_nil_iff]
      intro l hl
      obtain ⟨-, -, rfl⟩ := List.mem_map.1 hl
      rfl
    rw [this, List.append_nil]
  intro c f
  have := C38_in_order hC hL (show n < 64 by omega) (θ := θ) (by
    intro l hl k hkk
    rcases List.mem_append.1 hl with hl | hl
    · exact hk l hl k hkk
    · rw [trotterLines_eq] at hl
      obtain ⟨d, -, rfl⟩ := List.mem_map.1 hl
      simp [Instr.key?] at hkk) (history_append h1 h2) (rnd := rnd) (by rw [hfl]; exact hd) c f
  rw [hfl] at this
  exact this

/-- **C66.** If the terms of the observable commute, running the extended circuit is running the circuit as it was and then applying
`exp(-i angle/2 H)` exactly, for every number of repetitions and every coefficient.

Missing: angles below the threshold (`C66_tiny`, `C66_counterexample`). -/
theorem C66_exact_partial {ls : List Line} {C : Circuit} {n : Nat} (h : CircuitOf ls C n) {obs : Op} (ho : OpFits obs n)
    (hh : obs.hermitian = true) (hcomm : obs.terms.Pairwise fun p q => CommuteOn n (pauliOperator p) (pauliOperator q))
    {angle : ℝ} {r : Int} (hr : 0 < r) (ha : 1 / 10 ^ 12 ≤ |angle|) {L : Nat} (hL : LanesOK L) (hn : n ≤ 63)
    {θ : String → Option ℝ} (hk : KeysGiven ls θ) {ψ ψ1 : U64 → ℂ} {reg reg1 : List Bool} {ms : List Nat} {uss : List (List ℝ)}
    (h1 : History n θ ls ⟨ψ, reg, []⟩ uss ⟨ψ1, reg1, ms⟩) (hms : ∀ q ∈ ms, ∀ p ∈ obs.terms, q ∉ pauliQubits p)
    {rnd : Nat → ℝ} (hd : Draws rnd uss.flatten) :
    ∃ D φ, C.addObservableRotation obs angle r = .ok D ∧ IsExp n (-(Complex.I * angle / 2)) (sumOperator obs.terms) ψ1 φ ∧
      ∀ c f, D.RunsOn L n rnd θ ψ reg c f ↔ c = ⟨φ, reg1, uss.flatten.length⟩ ∧ f = none := by
  obtain ⟨D, φ, hD, hφ, hrun⟩ := rotation_run h ho hh hr ha hL hn hk h1 hms hd
  refine ⟨D, φ, hD, ?_, hrun⟩
  rw [isExp_iff hn (opFits_x ho), hφ]
  have hr0 : 0 < r.toNat := by omega
  have hz : -(Complex.I * ((angle / r.toNat : ℝ) : ℂ) / 2) = -(Complex.I * angle / 2) / (r.toNat : ℂ) := by push_cast; ring
  rw [hz, steps_exact hn (opFits_x ho) ?_ _ hr0]
  refine hcomm.imp_of_mem ?_
  intro p q hp hq hpq
  apply opC_ext hn
  intro ψ
  show opC n [p] (opC n [q] (vec n ψ)) = opC n [q] (opC n [p] (vec n ψ))
  have hxp : ∀ a ∈ [p], a.x.toNat < 2 ^ n := by simpa using opFits_x ho p hp
  have hxq : ∀ a ∈ [q], a.x.toNat < 2 ^ n := by simpa using opFits_x ho q hq
  rw [← vec_opC hn hxq, ← vec_opC hn hxp, ← vec_opC hn hxp, ← vec_opC hn hxq]
  simp only [opC_one, ← pauliOperator_eq]
  exact vec_congr hn (hpq ψ)

/-- **C66.** For every observable with real coefficients, running the extended circuit is running the circuit as it was and then applying
`exp(-i angle/2 H)` up to an error of norm at most `(angle Σ|c|)² / (2 r)` times the norm of the state.

Missing: angles below the threshold (`C66_tiny`, `C66_counterexample`). -/
theorem C66_trotter_partial {ls : List Line} {C : Circuit} {n : Nat} (h : CircuitOf ls C n) {obs : Op} (ho : OpFits obs n)
    (hh : obs.hermitian = true) (hc : ∀ p ∈ obs.terms, p.coef.im = 0)
    {angle : ℝ} {r : Int} (hr : 0 < r) (ha : 1 / 10 ^ 12 ≤ |angle|) {L : Nat} (hL : LanesOK L) (hn : n ≤ 63)
    {θ : String → Option ℝ} (hk : KeysGiven ls θ) {ψ ψ1 : U64 → ℂ} {reg reg1 : List Bool} {ms : List Nat} {uss : List (List ℝ)}
    (h1 : History n θ ls ⟨ψ, reg, []⟩ uss ⟨ψ1, reg1, ms⟩) (hms : ∀ q ∈ ms, ∀ p ∈ obs.terms, q ∉ pauliQubits p)
    {rnd : Nat → ℝ} (hd : Draws rnd uss.flatten) :
    ∃ D φ, C.addObservableRotation obs angle r = .ok D ∧
      (∀ χ, IsExp n (-(Complex.I * angle / 2)) (sumOperator obs.terms) ψ1 χ →
        normSq (2 ^ n) (fun j => φ j - χ j) ≤ ((angle * (obs.terms.map fun p => |p.coef.re|).sum) ^ 2 / (2 * r)) ^ 2 * normSq (2 ^ n) ψ1) ∧
      ∀ c f, D.RunsOn L n rnd θ ψ reg c f ↔ c = ⟨φ, reg1, uss.flatten.length⟩ ∧ f = none := by
  obtain ⟨D, φ, hD, hφ, hrun⟩ := rotation_run h ho hh hr ha hL hn hk h1 hms hd
  refine ⟨D, φ, hD, ?_, hrun⟩
  intro χ hχ
  rw [isExp_iff hn (opFits_x ho)] at hχ
  have hr0 : 0 < r.toNat := by omega
  have hrr : ((r.toNat : ℕ) : ℝ) = (r : ℝ) := by
    have : ((r.toNat : ℕ) : Int) = r := Int.toNat_of_nonneg hr.le
    exact_mod_cast congrArg (fun x : Int => (x : ℝ)) this
  have hb := steps_bound hn (opFits_x ho) hc (angle / 2) hr0
  have e1 : -(Complex.I * ((angle / r.toNat : ℝ) : ℂ) / 2) = -(Complex.I * ((angle / 2 / r.toNat : ℝ) : ℂ)) := by push_cast; ring
  have e2 : -(Complex.I * angle / 2) = -(Complex.I * ((angle / 2 : ℝ) : ℂ)) := by push_cast; ring
  rw [e1] at hφ
  rw [e2] at hχ
  have hsub : vec n (fun j => φ j - χ j) = vec n φ - vec n χ := by ext i; simp
  rw [normSq_vec hn, normSq_vec hn, hsub, hφ, hχ, ← sub_apply, ← mul_pow]
  apply pow_le_pow_left₀ (norm_nonneg _)
  refine le_trans (ContinuousLinearMap.le_opNorm _ _) (mul_le_mul_of_nonneg_right (le_trans hb (le_of_eq ?_)) (norm_nonneg _))
  rw [hrr, mul_pow, sq_abs]
  ring

/-- **C66.** With enough repetitions the error is as small as wanted, uniformly in the state. -/
theorem C66_converges {ts : List PauliOp} (angle : ℝ) {ε : ℝ} (hε : 0 < ε) : ∃ R : Int, ∀ r : Int, R ≤ r → 0 < r →
    ((angle * (ts.map fun p => |p.coef.re|).sum) ^ 2 / (2 * r)) ^ 2 ≤ ε := by
  set S := (angle * (ts.map fun p => |p.coef.re|).sum) ^ 2
  have hS : 0 ≤ S := sq_nonneg _
  obtain ⟨R, hR⟩ := exists_int_gt (S / Real.sqrt ε)
  refine ⟨R, fun r hr h0 => ?_⟩
  have hs := Real.sqrt_pos.2 hε
  have h0' : (0 : ℝ) < r := by exact_mod_cast h0
  have h1 : S / Real.sqrt ε ≤ r := le_trans hR.le (by exact_mod_cast hr)
  rw [div_le_iff₀ hs] at h1
  have h2 : S / (2 * r) ≤ Real.sqrt ε := by
    rw [div_le_iff₀ (by positivity)]
    nlinarith
  calc (S / (2 * r)) ^ 2 ≤ Real.sqrt ε ^ 2 := pow_le_pow_left₀ (by positivity) h2 2
    _ = ε := Real.sq_sqrt hε.le

/-! ### samples and counterexamples -/

/-- the observable `X₀ + 2 Z₀Z₁` -/
noncomputable def rotationObs : Op := Op.ofTerms [⟨1, 0b01, 0⟩, ⟨2, 0, 0b11⟩]

theorem rotationObs_fits : OpFits rotationObs 2 := by
  intro p hp
  have hp : p ∈ [(⟨1, 0b01, 0⟩ : PauliOp), ⟨2, 0, 0b11⟩] := hp
  unfold PauliFits
  rcases List.mem_cons.1 hp with rfl | hp
  · rw [show pauliQubits ⟨1, 0b01, 0⟩ = [0] from by simp only [pauliQubits]; decide]; simp
  · obtain rfl := List.mem_singleton.1 hp
    rw [show pauliQubits ⟨2, 0, 0b11⟩ = [0, 1] from by simp only [pauliQubits]; decide]; simp

/-- the hypotheses of `C66_trotter_partial` hold for the circuit of one Hadamard gate, this observable, the angle 1 and 10 repetitions -/
example (ψ : U64 → ℂ) : ∃ C ψ1, CircuitOf [⟨.gate (.one .H 0 [] []), none⟩] C 2 ∧ rotationObs.hermitian = true ∧
    (∀ p ∈ rotationObs.terms, p.coef.im = 0) ∧ (0 : Int) < 10 ∧ (1 : ℝ) / 10 ^ 12 ≤ |1| ∧
    History 2 (fun _ => none) [⟨.gate (.one .H 0 [] []), none⟩] ⟨ψ, [], []⟩ [[]] ⟨ψ1, [], []⟩ := by
  obtain ⟨C, hC⟩ := buildCircuit_of (ls := [⟨.gate (.one .H 0 [] []), none⟩]) (by
    intro l hl
    obtain rfl := List.mem_singleton.1 hl
    exact gate_builds _ (by norm_num))
  have hist := plain_history (n := 2) (θ := fun _ => none) (ls := [⟨.gate (.one .H 0 [] []), none⟩]) (by simp [Line.Plain])
    (by simp [KeysGiven, Instr.key?]) ψ []
  refine ⟨C, _, ⟨hC, ?_, ?_⟩, ?_, ?_, by norm_num, by norm_num, hist⟩
  · intro l hl
    obtain rfl := List.mem_singleton.1 hl
    trivial
  · intro l hl
    obtain rfl := List.mem_singleton.1 hl
    simp [Instr.qubits, qubitsOf, targetsOf, controlsOf, ctrlList]
  · simp [rotationObs, Op.ofTerms, realCoefs]
  · intro p hp
    have hp : p ∈ [(⟨1, 0b01, 0⟩ : PauliOp), ⟨2, 0, 0b11⟩] := hp
    simp only [List.mem_cons, List.not_mem_nil, or_false] at hp
    rcases hp with rfl | rfl <;> simp

/-- commuting terms for `C66_exact_partial`: `Z₀` and `2 Z₀Z₁` -/
example (n : Nat) : [(⟨1, 0, 0b01⟩ : PauliOp), ⟨2, 0, 0b11⟩].Pairwise fun p q => CommuteOn n (pauliOperator p) (pauliOperator q) := by
  rw [List.pairwise_pair]
  intro ψ j _
  rw [pauliOperator_eq, pauliOperator_eq, pauliOperator_eq, pauliOperator_eq]
  have x0 : ∀ k : U64, k ^^^ (0 : U64) = k := fun k => BitVec.xor_zero
  simp only [PauliAct, pauliAct, x0]
  ring

/-- **C66 fails below the threshold.** `exp(-i angle/2 H)` with `H = 2π 10¹² X₀` and `angle = 10⁻¹² / 2` takes `|0⟩` to `-i |1⟩`, but the call
appends nothing, whatever the number of repetitions. -/
theorem C66_counterexample : ∃ (obs : Op) (angle : ℝ) (χ : U64 → ℂ), obs.hermitian = true ∧ OpFits obs 1 ∧
    (∀ p ∈ obs.terms, p.coef.im = 0) ∧ IsExp 1 (-(Complex.I * angle / 2)) (sumOperator obs.terms) (basisState 0) χ ∧ χ 0 = 0 ∧
    ∀ (C : Circuit) (r : Int), 0 < r → C.addObservableRotation obs angle r = .ok C := by
  set c : ℝ := 2 * Real.pi * 10 ^ 12 with hcdef
  have hfit : PauliFits ⟨(c : ℂ), 1, 0⟩ 1 := by
    unfold PauliFits
    rw [show pauliQubits ⟨(c : ℂ), 1, 0⟩ = [0] from by simp only [pauliQubits]; decide]; simp
  have hh : (Op.ofTerms [⟨(c : ℂ), 1, 0⟩]).hermitian = true := by simp [Op.ofTerms, realCoefs]
  have hE := C12_exponential (p := ⟨(c : ℂ), 1, 0⟩) (n := 1) (by norm_num) hfit (1 / 10 ^ 12 / 2) (basisState 0)
  have e : pauliOperator ⟨(c : ℂ), 1, 0⟩ = sumOperator (Op.ofTerms [⟨(c : ℂ), 1, 0⟩]).terms := by
    funext ψ j; simp [sumOperator, Op.ofTerms]
  rw [e] at hE
  refine ⟨Op.ofTerms [⟨(c : ℂ), 1, 0⟩], 1 / 10 ^ 12 / 2, _, hh, ?_, ?_, hE, ?_, ?_⟩
  rotate_left 2
  · have ang : (((1 / 10 ^ 12 / 2 : ℝ) : ℂ) * (c : ℂ) / 2) = ((Real.pi : ℂ) / 2) := by
      rw [hcdef]; push_cast; ring
    dsimp only
    rw [ang, Complex.cos_pi_div_two, Complex.sin_pi_div_two, pauliOperator_eq]
    have x1 : (0 : U64) ^^^ 1 = 1 := by decide
    simp [PauliAct, pauliAct, x1, basisState]
  · intro C r hr
    exact C66_tiny C hh hr (by rw [abs_of_nonneg (by positivity)]; norm_num)
  · intro p hp
    obtain rfl := List.mem_singleton.1 (show p ∈ [(⟨(c : ℂ), 1, 0⟩ : PauliOp)] from hp)
    exact hfit
  · intro p hp
    obtain rfl := List.mem_singleton.1 (show p ∈ [(⟨(c : ℂ), 1, 0⟩ : PauliOp)] from hp)
    simp

/-- **C66: a non-Hermitian observable can be accepted**, because the flag of a product is wrong (`C29_counterexample_pauli`): `X₀ * Z₀`. -/
theorem C66_counterexample_flag : ∃ obs : Op, OpFits obs 1 ∧ ¬ IsHermitian 1 (sumOperator obs.terms) ∧
    ∀ (C : Circuit) (angle : ℝ) (r : Int), 0 < r → ∃ D, C.addObservableRotation obs angle r = .ok D :=
  ⟨_, C29_counterexample_pauli.2.1, C29_counterexample_pauli.2.2, fun C angle r hr => (C66_rejects C _ angle r).2 C29_counterexample_pauli.1 hr⟩

end Verif.Props
