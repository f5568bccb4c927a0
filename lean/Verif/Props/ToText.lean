import Verif.Proofs.ToTextUnique
import Verif.Model.ParamGate
import Verif.Proofs.Merge
import Verif.Proofs.ParamGate

/-! # C80: the texts of `to_string` -/

namespace Verif.Props
open Verif Verif.Model Verif.Spec Verif.Proofs
attribute [-simp] BitVec.getLsbD_eq_getElem

/-! ## states -/

/-- **C80** (states).  The text of a state of `n` qubits consists of the number of qubits, the dimension, a title and one line for every
amplitude, in the order of the basis states; every such line shows the bits of the basis state, qubit 0 last, and the amplitude. -/
theorem C80_state {num : ℝ → Text} (h : PrintsNumbers num) {n : Nat} (hn : n ≤ 63) (amp : U64 → ℂ) :
    textLines (stateText num n amp) = sizeLines n ++ [t! "State vector : "] ++ (List.range (2 ^ n)).map (amplitudeLine num n amp) ++ [[]] :=
  stateText_lines h hn amp

/-- the text shows the number of qubits and the printed form of every amplitude -/
theorem C80_state_determines {num : ℝ → Text} (h : PrintsNumbers num) {n n' : Nat} (hn : n ≤ 63) (hn' : n' ≤ 63) {amp amp' : U64 → ℂ}
    (e : stateText num n amp = stateText num n' amp') :
    n = n' ∧ ∀ i : U64, i.toNat < 2 ^ n → num (amp i).re = num (amp' i).re ∧ num (amp i).im = num (amp' i).im := by
  have e1 := stateText_lines h hn amp
  rw [e, stateText_lines h hn' amp'] at e1
  have hnn : n = n' := by
    have := (List.cons.inj (show (t! "Qubit Count : " ++ numeral n') :: _ = (t! "Qubit Count : " ++ numeral n) :: _ from e1)).1
    exact (numeral_injective (List.append_cancel_left this)).symm
  subst hnn
  refine ⟨rfl, fun i hi => ?_⟩
  have e2 := List.append_cancel_left (List.append_cancel_right e1)
  have e3 := List.map_inj_left.1 e2 i.toNat (List.mem_range.2 hi)
  unfold amplitudeLine at e3
  rw [BitVec.ofNat_toNat, BitVec.setWidth_eq] at e3
  have e4 := List.append_cancel_left e3
  obtain ⟨e5, e6, -⟩ := complex_injective h (r := []) (s := []) (by simpa using e4)
  exact ⟨e5.symm, e6.symm⟩

/-- **C80** (batches of states): every state of the batch follows under its number -/
theorem C80_batched {num : ℝ → Text} (h : PrintsNumbers num) {n : Nat} (hn : n ≤ 63) (B : Nat) (amp : Nat → U64 → ℂ) :
    textLines (batchText num B n amp) = sizeLines n ++ ((List.range B).flatMap fun b =>
      [t! "--------------------", t! "Batch_id : " ++ numeral b, t! "State vector : "] ++ (List.range (2 ^ n)).map (amplitudeLine num n (amp b))) ++ [[]] :=
  batchText_lines h hn B amp

/-- **C80** (density matrices): the elements row by row under the bits of both basis states -/
theorem C80_density {num : ℝ → Text} (h : PrintsNumbers num) (d : DM) (hn : d.n ≤ 63) :
    textLines (d.text num) = sizeLines d.n ++ [t! "Is Hermitian : " ++ (if d.hermitian then t! "true" else t! "false"), t! "Density Matrix : "] ++
      ((List.range (2 ^ d.n)).flatMap fun i => (List.range (2 ^ d.n)).map fun j => elementLine num d.n d.raw i j) ++ [[]] :=
  densityText_lines h d hn

/-- different basis states have different labels, all of `n` characters; the last character is qubit 0 -/
theorem C80_labels {n i j : Nat} (hi : i < 2 ^ n) (hj : j < 2 ^ n) :
    (basisLabel n i = basisLabel n j → i = j) ∧ (basisLabel n i).length = n ∧
    ∀ k, (hk : k < n) → (basisLabel n i)[n - 1 - k]? = some (if i.testBit k then '1' else '0') := by
  refine ⟨basisLabel_injective hi hj, basisLabel_length n i, fun k hk => ?_⟩
  unfold basisLabel
  rw [List.getElem?_map, List.getElem?_eq_getElem (by simp; omega), List.getElem_reverse]
  simp only [List.length_range, List.getElem_range, Option.map_some]
  rw [show n - 1 - (n - 1 - k) = k by omega]

/-! ## operators -/

/-- **C80** (Pauli operators and operators).  There is a way to write the letters of a Pauli operator that the constructor from a string
reads back, such that a Pauli operator is shown as coefficient and letters and an operator as one such line for every term, in order. -/
theorem C80_operator {num : ℝ → Text} (h : PrintsNumbers num) :
    ∃ w : PauliOp → Text, (∀ p, p.getString = .ok (w p) ∧ PauliOp.ofString (w p) p.coef = .ok p) ∧
      (∀ p : PauliOp, p.text num = .ok (termLine num p.coef (w p))) ∧
      (∀ o : Op, ∃ s, o.text num = .ok s ∧ textLines s = (o.terms.map fun p => termLine num p.coef (w p)) ++ [[]]) ∧
      ∀ l : List (List PauliOp), ∃ s, (OpB.ofLists l).text num = .ok s ∧ textLines s =
        (l.zipIdx.flatMap fun a => (t! "Operator " ++ numeral a.2 ++ t! ":") :: a.1.map fun p => termLine num p.coef (w p)) ++ [[]] := by
  refine ⟨letters, fun p => ⟨(letters_spec p).1, (letters_spec p).2.1⟩, pauliText_eq num, fun o => ⟨_, termsText_eq num o.terms, ?_⟩, opbText_lines h⟩
  rw [← List.append_nil (List.flatten _), textLines_flatten _ _ (fun p _ => termLine_plain h p), textLines_nil]

/-- operators with the same text have the same terms up to the printed form of the coefficients -/
theorem C80_operator_determines {num : ℝ → Text} (h : PrintsNumbers num) {o o' : Op} (e : o.text num = o'.text num) :
    o.terms.map (fun p => (p.x, p.z, num p.coef.re, num p.coef.im)) = o'.terms.map (fun p => (p.x, p.z, num p.coef.re, num p.coef.im)) := by
  unfold Op.text at e
  rw [termsText_eq, termsText_eq] at e
  have e1 := congrArg textLines (Except.ok.inj e)
  rw [← List.append_nil (List.flatten _), textLines_flatten _ _ (fun p _ => termLine_plain h p), ← List.append_nil (List.flatten (o'.terms.map _)),
    textLines_flatten _ _ (fun p _ => termLine_plain h p)] at e1
  have e2 := List.append_cancel_right e1
  have key : ∀ p q : PauliOp, termLine num p.coef (letters p) = termLine num q.coef (letters q) →
      (p.x, p.z, num p.coef.re, num p.coef.im) = (q.x, q.z, num q.coef.re, num q.coef.im) := by
    intro p q hpq
    unfold termLine at hpq
    simp only [List.append_assoc] at hpq
    obtain ⟨h1, h2, h3⟩ := complex_injective h hpq
    obtain ⟨h4, h5⟩ := letters_injective (List.append_cancel_right (List.append_cancel_left h3))
    rw [h1, h2, h4, h5]
  generalize o.terms = l at e2
  generalize o'.terms = l' at e2
  induction l generalizing l' with
  | nil =>
    cases l' with
    | nil => rfl
    | cons b l' => cases e2
  | cons a l ih =>
    cases l' with
    | nil => cases e2
    | cons b l' =>
      rw [List.map_cons, List.map_cons, List.cons.injEq] at e2
      rw [List.map_cons, List.map_cons, key _ _ e2.1, ih _ e2.2]

/-- a default constructed batched operator has no text: the call throws -/
theorem C80_operator_default (num : ℝ → Text) : ∃ e, (⟨[], []⟩ : OpB).text num = .error (.throw e) := ⟨_, rfl⟩

/-! ## gates -/

/-- **C80** (gates), for all classes but `U2` and the Pauli gates: title, parameters, targets, controls and control values. -/
theorem C80_gate_partial {num : ℝ → Text} (h : PrintsNumbers num) {indent : Text} (hi : '\n' ∉ indent) {d : GateDesc} {g : UGate}
    (hb : d.build = .ok g) (hp : NotPauli d) (hu : NotU2 d) :
    ∃ s, g.text num indent = .ok s ∧ textLines s = (titleLine d :: (realLines num d ++ otherLines d ++
      qubitLines g.targetQubitList g.controlQubitList g.controlValueList)).map (indent ++ ·) :=
  gate_lines h hi hb hp hu

/-- gates whose class shows all its arguments: the text determines the gate as far as the printer separates the parameters -/
theorem C80_gate_determines_partial {num : ℝ → Text} (h : PrintsNumbers num) {indent : Text} (hi : '\n' ∉ indent) {d d' : GateDesc} {g g' : UGate}
    (hb : d.build = .ok g) (hb' : d'.build = .ok g') (hd : Named d) (hd' : Named d') (hn : Separates num d d')
    (ht : g.text num indent = g'.text num indent) : g = g' :=
  text_determines h hi hb hb' hd hd' hn ht

/-- the code writes the angles of `U2` in front of the title -/
theorem C80_counterexample_u2 {num : ℝ → Text} (h : PrintsNumbers num) {p l : ℝ} {q : Nat} {cs vs : List Nat} {g : UGate}
    (hb : (GateDesc.one (.U2 p l) q cs vs).build = .ok g) :
    ∃ s, g.text num [] = .ok s ∧ textLines s = realLines num (.one (.U2 p l) q cs vs) ++ [titleLine (.one (.U2 p l) q cs vs)] ++
      qubitLines g.targetQubitList g.controlQubitList g.controlValueList ∧ (textLines s).head? ≠ some (t! "Gate Type: U2") := by
  obtain ⟨s, e1, e2⟩ := u2_lines h (indent := []) (by simp) hb
  have e3 : textLines s = realLines num (.one (.U2 p l) q cs vs) ++ titleLine (.one (.U2 p l) q cs vs) :: maskLines g.operands := by
    rw [e2]
    simp
  refine ⟨s, e1, ?_, ?_⟩
  · rw [e3, List.append_assoc]
    rfl
  · rw [e3]
    simp [realLines, gateReals]

/-- the Pauli gates show title, angle, controls and letters, but no control values and no coefficient -/
theorem C80_pauli {num : ℝ → Text} (h : PrintsNumbers num) {indent : Text} (hi : '\n' ∉ indent) {d : GateDesc} {g : UGate} (hb : d.build = .ok g)
    (hp : ¬ NotPauli d) :
    ∃ s w, g.text num indent = .ok s ∧ (∃ p, (d = .pauli p (controlArgs d).1 (controlArgs d).2 ∨
        ∃ a, d = .pauliRot p a (controlArgs d).1 (controlArgs d).2) ∧ PauliOp.ofString w p.coef = .ok p) ∧
      textLines s = (titleLine d :: (realLines num d ++ [t! "  Control Qubits: " ++ braces g.controlQubitList,
        t! "  Pauli Operator: \"" ++ w ++ t! "\""])).map (indent ++ ·) := by
  cases d with
  | pauli p cs vs =>
    obtain ⟨e, he, hb⟩ := bind_ok hb
    cases hb
    obtain ⟨s, h1, h2⟩ := pauliGate_lines h hi (GateDesc.pauli p cs vs) e
    obtain ⟨hp, -⟩ := mkPauli_ok he
    refine ⟨s, letters e.p, h1, ⟨p, Or.inl rfl, ?_⟩, h2⟩
    rw [hp]
    exact (letters_spec p).2.1
  | pauliRot p a cs vs =>
    obtain ⟨e, he, hb⟩ := bind_ok hb
    cases hb
    obtain ⟨s, h1, h2⟩ := pauliGate_lines h hi (GateDesc.pauliRot p a cs vs) e
    obtain ⟨hp, -⟩ := mkPauli_ok he
    refine ⟨s, letters e.p, h1, ⟨p, Or.inr ⟨a, rfl⟩, ?_⟩, h2⟩
    rw [hp]
    exact (letters_spec p).2.1
  | _ => exact absurd trivial hp

theorem one_bit (q : Nat) (hq : q < 64) : IsBit (BitVec.ofNat 64 (2 ^ q)) q := by
  refine ⟨hq, fun i => ?_⟩
  rw [BitVec.getLsbD_ofNat, Nat.testBit_two_pow]
  by_cases h : q = i <;> simp [h, eq_comm] <;> omega

/-- the control values of a Pauli gate cannot be seen from its text -/
theorem C80_counterexample_control_values (num : ℝ → Text) (indent : Text) :
    ∃ g g', (GateDesc.pauli ⟨1, 1, 0⟩ [1] [0]).build = .ok g ∧ (GateDesc.pauli ⟨1, 1, 0⟩ [1] [1]).build = .ok g' ∧
      g.text num indent = g'.text num indent ∧ g.controlValueList = [0] ∧ g'.controlValueList = [1] := by
  have hc : maskToVector (2 : U64) = [1] := IsBit.vector (one_bit 1 (by norm_num))
  have h0 : maskToVector2 2 0 = [0] := by unfold maskToVector2; rw [hc]; rfl
  have h1 : maskToVector2 2 2 = [1] := by unfold maskToVector2; rw [hc]; rfl
  have e0 := mkPauli_self (p := ⟨1, 1, 0⟩) (c := 2) (v := 0) ⟨by decide, fun i hi => by rw [show (0 : U64).getLsbD i = false from BitVec.getLsbD_zero] at hi; cases hi⟩
  have e1 := mkPauli_self (p := ⟨1, 1, 0⟩) (c := 2) (v := 2) ⟨by decide, fun i hi => hi⟩
  rw [hc, h0] at e0
  rw [hc, h1] at e1
  exact ⟨.pauli ⟨⟨1, 1, 0⟩, ⟨1 ||| 0, 2, 0⟩⟩, .pauli ⟨⟨1, 1, 0⟩, ⟨1 ||| 0, 2, 2⟩⟩, by rw [GateDesc.build, e0]; rfl, by rw [GateDesc.build, e1]; rfl, rfl, h0, h1⟩

/-- nor can its coefficient -/
theorem C80_counterexample_coefficient (num : ℝ → Text) (indent : Text) :
    ∃ g g', (GateDesc.pauli ⟨1, 1, 0⟩ [] []).build = .ok g ∧ (GateDesc.pauli ⟨2, 1, 0⟩ [] []).build = .ok g' ∧
      g.text num indent = g'.text num indent ∧ matrixOf (.pauli ⟨1, 1, 0⟩ [] []) 0 1 = 1 ∧ matrixOf (.pauli ⟨2, 1, 0⟩ [] []) 0 1 = 2 := by
  have hc : maskToVector (0 : U64) = [] := maskToVector_zero
  have h0 : maskToVector2 0 0 = [] := by unfold maskToVector2; rw [hc]; rfl
  have hz : ∀ i, (0 : U64).getLsbD i = true → (0 : U64).getLsbD i = true := fun i hi => hi
  have e0 := mkPauli_self (p := ⟨1, 1, 0⟩) (c := 0) (v := 0) ⟨by decide, hz⟩
  have e1 := mkPauli_self (p := ⟨2, 1, 0⟩) (c := 0) (v := 0) ⟨by decide, hz⟩
  rw [hc, h0] at e0 e1
  have hm : ∀ c : ℂ, pauliMat ⟨c, 1, 0⟩ 0 1 = 1 := by
    intro c
    have hq : pauliQubits ⟨c, 1, 0⟩ = [0] := by
      unfold pauliQubits
      show (List.range 64).filter (fun q => (1 : U64).getLsbD q || (0 : U64).getLsbD q) = [0]
      decide
    unfold pauliMat
    rw [hq]
    simp [letterAt, pauliStringMat, pauli1Mat, pauliX, mat2]
  refine ⟨.pauli ⟨⟨1, 1, 0⟩, ⟨1 ||| 0, 0, 0⟩⟩, .pauli ⟨⟨2, 1, 0⟩, ⟨1 ||| 0, 0, 0⟩⟩, by rw [GateDesc.build, e0]; rfl, by rw [GateDesc.build, e1]; rfl, rfl, ?_, ?_⟩
  · show (1 : ℂ) * pauliMat ⟨1, 1, 0⟩ 0 1 = 1
    rw [hm, mul_one]
  · show (2 : ℂ) * pauliMat ⟨2, 1, 0⟩ 0 1 = 2
    rw [hm, mul_one]

/-- a measurement shows its classical bit, whether it resets, and its target -/
theorem C80_measurement {num : ℝ → Text} {indent : Text} (hi : '\n' ∉ indent) {t c : Nat} {r : Bool} {g : MeasGate} (hb : mkMeas t c r = .ok g) :
    ∃ s, (Gate.meas g).text num indent = .ok s ∧ textLines s = ([t! "Gate Type: Measurement", t! "  Classical Bit Index: " ++ numeral c,
      t! "  Reset: " ++ (if r then t! "true" else t! "false")] ++ qubitLines [t] [] []).map (indent ++ ·) := by
  unfold mkMeas at hb
  obtain ⟨m, hm, hb⟩ := bind_ok hb
  obtain ⟨o, ho, hb⟩ := bind_ok hb
  cases hb
  refine ⟨_, rfl, ?_⟩
  have ho' : o = ⟨m, 0, 0⟩ := by
    unfold gateBase at ho
    split at ho
    · cases ho
    · exact (Except.ok.inj ho).symm
  have hv : maskToVector m = [t] := by
    obtain ⟨h1, h2, h3, h4⟩ := foldl_vectorToMask [t] 0 m hm
    exact IsBit.vector ⟨h1 t (by simp), fun i => by
      rw [h4 i, show (0 : U64).getLsbD i = false from BitVec.getLsbD_zero]
      simp⟩
  unfold MeasGate.text
  have hr : '\n' ∉ boolText r := by cases r <;> decide
  have hc : '\n' ∉ numeral c := numeral_avoid (by decide)
  rw [typeLine_lines hi (by decide), decimal_numeral,
    show indent ++ (t! "  Classical Bit Index: " ++ (numeral c ++ '\n' :: (indent ++ (t! "  Reset: " ++ (boolText r ++ '\n' :: qubitInfo indent o))))) =
      (indent ++ (t! "  Classical Bit Index: " ++ numeral c)) ++ '\n' :: ((indent ++ (t! "  Reset: " ++ boolText r)) ++ '\n' :: qubitInfo indent o) by simp,
    textLines_cons (by simp [hi, hc]), textLines_cons (by simp [hi, hr]), qubitInfo_lines hi, ho']
  unfold maskLines
  rw [hv, maskToVector_zero, show maskToVector2 (⟨m, 0, 0⟩ : Operands).c (⟨m, 0, 0⟩ : Operands).v = [] by
    unfold maskToVector2; show (maskToVector 0).map _ = []; rw [maskToVector_zero]; rfl]
  cases r <;> simp [boolText]

/-- the lines of the alternatives -/
def alternativeLines {G : Type} (num : ℝ → Text) (indent : Text) (lines : G → List Text) (l : List (ℝ × G)) : List Text :=
  l.flatMap fun a => (indent ++ t! "  --------------------") :: (indent ++ t! "  Probability: " ++ num a.1) :: lines a.2

theorem alternatives_lines {G : Type} {num : ℝ → Text} (h : PrintsNumbers num) {indent : Text} (hi : '\n' ∉ indent) (text : Text → G → Res Text)
    (lines : G → List Text) (l : List (ℝ × G)) (hl : l ≠ []) (ht : ∀ a ∈ l, ∃ s, text (indent ++ t! "  ") a.2 = .ok s ∧ textLines s = lines a.2) :
    ∃ s, alternativesText num indent text l = .ok s ∧ textLines s = alternativeLines num indent lines l := by
  have hnum := prints_avoid h (c := '\n') (by decide) (by decide)
  induction l with
  | nil => exact absurd rfl hl
  | cons a l ih =>
    obtain ⟨p, g⟩ := a
    obtain ⟨s, h1, h2⟩ := ht (p, g) List.mem_cons_self
    have h1' : text (indent ++ t! "  ") g = .ok s := h1
    have start : ∀ r : Text, textLines (indent ++ (t! "  --------------------\n" ++ (indent ++ (t! "  Probability: " ++ (num p ++ '\n' :: r))))) =
        (indent ++ t! "  --------------------") :: (indent ++ t! "  Probability: " ++ num p) :: textLines r := by
      intro r
      rw [show indent ++ (t! "  --------------------\n" ++ (indent ++ (t! "  Probability: " ++ (num p ++ '\n' :: r)))) =
        (indent ++ t! "  --------------------") ++ '\n' :: ((indent ++ t! "  Probability: " ++ num p) ++ '\n' :: r) by simp,
        textLines_cons (by simp [hi]), textLines_cons (by simp [hi, hnum])]
    cases l with
    | nil =>
      rw [alternativesText, h1', ok_bind, alternativesText, ok_bind]
      refine ⟨_, rfl, ?_⟩
      rw [start]
      simp [alternativeLines, h2]
    | cons b l =>
      obtain ⟨s', h3, h4⟩ := ih (by simp) fun c hc => ht c (List.mem_cons_of_mem _ hc)
      rw [alternativesText, h1', ok_bind, h3, ok_bind]
      refine ⟨_, rfl, ?_⟩
      rw [start]
      have e : textLines (s ++ ((if (b :: l).isEmpty then [] else t! "\n") ++ s')) = textLines s ++ textLines s' :=
        List.splitOn_append_cons_self s s'
      rw [e, h4, h2]
      simp [alternativeLines]

/-- a probabilistic gate shows the probability and the text of every alternative, in order and further indented -/
theorem C80_probabilistic {num : ℝ → Text} (h : PrintsNumbers num) {indent : Text} (hi : '\n' ∉ indent) {dist : List (Option ℝ)} {gates : List Gate}
    {t : ProbTable UGate} (hb : mkProbabilistic dist gates = .ok (.prob t)) (lines : UGate → List Text)
    (ht : ∀ g ∈ t.gates, ∃ s, g.text num (indent ++ t! "  ") = .ok s ∧ textLines s = lines g) :
    ∃ s, (Gate.prob t).text num indent = .ok s ∧
      textLines s = (indent ++ t! "Gate Type: Probabilistic") :: alternativeLines num indent lines (t.dist.zip t.gates) := by
  have ht' : mkProbTable dist (gates.map Gate.component) = .ok t := by
    unfold mkProbabilistic at hb
    obtain ⟨t', h1, hb⟩ := bind_ok hb
    cases hb
    exact h1
  obtain ⟨flat, h0, h1, h2⟩ : ∃ flat : List (ℝ × UGate), flat ≠ [] ∧ t.dist = flat.map (·.1) ∧ t.gates = flat.map (·.2) := by
    unfold mkProbTable at ht'
    split at ht'
    · cases ht'
    · split at ht'
      · cases ht'
      · obtain ⟨ps, -, ht'⟩ := bind_ok ht'
        obtain ⟨flat, -, ht'⟩ := bind_ok ht'
        refine ⟨flat, ?_, ?_⟩
        · rintro rfl
          have e : (([] : List (ℝ × UGate)).map (·.1)).scanl (· + ·) 0 = [0] := rfl
          dsimp only at ht'
          rw [e] at ht'
          dsimp only [List.getLast?] at ht'
          rw [if_pos (by norm_num [List.getLast])] at ht'
          cases ht'
        · dsimp only at ht'
          split at ht'
          · cases ht'
          · split at ht'
            · cases ht'
            · cases ht'
              exact ⟨rfl, rfl⟩
  have hz : t.dist.zip t.gates = flat := by
    rw [h1, h2, ← List.zip_of_prod rfl rfl]
  obtain ⟨s, h3, h4⟩ := alternatives_lines h hi (fun i g => UGate.text num i g) lines flat h0 (fun a ha => ht a.2 (by rw [h2]; exact List.mem_map_of_mem ha))
  rw [Gate.text, if_neg (by rw [h1, h2]; simp), hz, h3, ok_bind]
  refine ⟨_, rfl, ?_⟩
  rw [typeLine_lines hi (by decide), h4]
  rfl

/-- parametric rotations show title, coefficient, target and controls; a parametric Pauli rotation shows title, controls and letters -/
theorem C80_parametric {num : ℝ → Text} (h : PrintsNumbers num) {indent : Text} (hi : '\n' ∉ indent) {t : Nat} {c : ℝ} {cs vs : List Nat} :
    (∀ a r, mkAxis a t c cs vs = .ok r → ∃ s, r.text num indent = .ok s ∧ textLines s = ([t! "Gate Type: " ++ (match a with
        | .X => t! "ParamRX"
        | .Y => t! "ParamRY"
        | .Z => t! "ParamRZ"), t! "  Parameter Coefficient: " ++ num c, t! "  Target Qubits: " ++ braces [t],
      t! "  Control Qubits: " ++ braces (maskToVector r.operands.c)]).map (indent ++ ·)) ∧
    ∀ p r, mkParamPauli p c cs vs = .ok r → ∃ s w, r.text num indent = .ok s ∧ PauliOp.ofString w p.coef = .ok p ∧
      textLines s = ([t! "Gate Type: ParamPauliRotation", t! "  Control Qubits: " ++ braces (maskToVector r.operands.c),
        t! "  Pauli Operator: \"" ++ w ++ t! "\""]).map (indent ++ ·) := by
  have hnum := prints_avoid h (c := '\n') (by decide) (by decide)
  constructor
  · intro a r hr
    obtain ⟨o, ho, hr⟩ := bind_ok hr
    cases hr
    obtain ⟨h1, h2, -, -, -, -, -, tb, -⟩ := mkOperands_ok ho
    have hv : maskToVector o.t = [t] := IsBit.vector ⟨h2 t (by simp), fun i => by rw [tb i]; simp⟩
    refine ⟨_, rfl, ?_⟩
    rw [hv, listLine_eq, listLine_eq, typeLine_lines hi (by cases a <;> decide), ← List.append_assoc (t! "  Parameter Coefficient: "), ← List.append_assoc indent (t! "  Parameter Coefficient: " ++ num c),
      textLines_cons (by simp [hi, hnum]), textLines_cons (by simp [hi, braces_plain]), textLines_one (by simp [hi, braces_plain])]
    cases a <;> simp [PRot.operands]
  · intro p r hr
    obtain ⟨g, hg, hr⟩ := bind_ok hr
    cases hr
    obtain ⟨rfl, -⟩ := mkPauli_ok hg
    have hl := (letters_spec g.p).2.2.1
    refine ⟨_, letters g.p, by rw [PRot.text, pauliText, (letters_spec g.p).1, ok_bind]; rfl, (letters_spec g.p).2.1, ?_⟩
    rw [typeLine_lines hi (by decide), listLine_eq, List.nil_append, textLines_cons (by simp [hi, braces_plain]), textLines_one (by simp [hi, hl])]
    simp [PRot.operands]

/-- the control values of a parametric rotation and the coefficient of a parametric Pauli rotation cannot be seen from the text -/
theorem C80_counterexample_parametric (num : ℝ → Text) (indent : Text) :
    (∃ r r', mkAxis .X 0 1 [1] [0] = .ok r ∧ mkAxis .X 0 1 [1] [1] = .ok r' ∧ r.text num indent = r'.text num indent ∧ r.operands.v ≠ r'.operands.v) ∧
    ∃ r r', mkParamPauli ⟨1, 1, 0⟩ 1 [] [] = .ok r ∧ mkParamPauli ⟨1, 1, 0⟩ 2 [] [] = .ok r' ∧ r.text num indent = r'.text num indent ∧
      r.pcoef = 1 ∧ r'.pcoef = 2 := by
  have hc : maskToVector (2 : U64) = [1] := IsBit.vector (one_bit 1 (by norm_num))
  have ht : maskToVector (1 : U64) = [0] := IsBit.vector (one_bit 0 (by norm_num))
  have hz : maskToVector (0 : U64) = [] := maskToVector_zero
  have h0 : maskToVector2 2 0 = [0] := by unfold maskToVector2; rw [hc]; rfl
  have h1 : maskToVector2 2 2 = [1] := by unfold maskToVector2; rw [hc]; rfl
  have h2 : maskToVector2 0 0 = [] := by unfold maskToVector2; rw [hz]; rfl
  constructor
  · have e0 := mkOperands_self (o := ⟨1, 2, 0⟩) ⟨by decide, fun i hi => by rw [show (0 : U64).getLsbD i = false from BitVec.getLsbD_zero] at hi; cases hi⟩
    have e1 := mkOperands_self (o := ⟨1, 2, 2⟩) ⟨by decide, fun i hi => hi⟩
    simp only [ht, hc, h0, h1] at e0 e1
    refine ⟨.axis .X ⟨1, 2, 0⟩ 1, .axis .X ⟨1, 2, 2⟩ 1, by rw [mkAxis, e0]; rfl, by rw [mkAxis, e1]; rfl, rfl, by decide⟩
  · have e0 := mkPauli_self (p := ⟨1, 1, 0⟩) (c := 0) (v := 0) ⟨by decide, fun i hi => hi⟩
    rw [hz, h2] at e0
    exact ⟨.pauli _ 1, .pauli _ 2, by rw [mkParamPauli, e0]; rfl, by rw [mkParamPauli, e0]; rfl, rfl, rfl, rfl⟩

/-! ## concrete cases -/

/-- a printer: zero as `0`, everything else as `1e-3` -/
noncomputable def samplePrinter (x : ℝ) : Text := open Classical in if x = 0 then t! "0" else t! "1e-3"

theorem samplePrinter_prints : PrintsNumbers samplePrinter := by
  intro x c hc
  unfold samplePrinter at hc
  revert hc
  split <;> revert c <;> decide

example : (textLines (stateText samplePrinter 2 (fun i => if i = 2 then 1 else 0)))[5]? = some (t! "  10 : (1e-3,0)") := by
  rw [C80_state samplePrinter_prints (by norm_num)]
  have h : (fun i : U64 => if i = 2 then (1 : ℂ) else 0) (BitVec.ofNat 64 2) = 1 := if_pos rfl
  have hr : List.range (2 ^ 2) = [0, 1, 2, 3] := rfl
  have hl : basisLabel 2 2 = t! "10" := by decide
  rw [hr]
  show some (amplitudeLine samplePrinter 2 (fun i => if i = 2 then 1 else 0) 2) = _
  unfold amplitudeLine complexNumeral samplePrinter
  rw [h, hl]
  simp

example (q : Nat) (hq : q < 64) : ∃ g s, (GateDesc.one .H q [] []).build = .ok g ∧ g.text samplePrinter [] = .ok s ∧ (textLines s)[0]? = some (t! "Gate Type: H") ∧
    (textLines s)[1]? = some (t! "  Target Qubits: {" ++ numeral q ++ t! "}") := by
  obtain ⟨o, ho⟩ := mkOperands_complete (ts := [q]) (cs := []) (vs := []) (by simp) (by simpa using hq) (by simp) (by simp) (by simp) (by simp [effectiveValues])
    (by simp [effectiveValues])
  have hb : (GateDesc.one .H q [] []).build = .ok (.one .H o) := by rw [GateDesc.build, ho]; rfl
  obtain ⟨s, h1, h2⟩ := C80_gate_partial samplePrinter_prints (indent := []) (by simp) hb trivial trivial
  obtain ⟨-, k2, -, -, -, -, -, tb, -⟩ := mkOperands_ok ho
  have hv : maskToVector o.t = [q] := IsBit.vector ⟨hq, fun i => by rw [tb i]; simp⟩
  refine ⟨_, s, hb, h1, ?_, ?_⟩
  · rw [h2]; rfl
  · rw [h2]
    simp [UGate.targetQubitList, UGate.operands, hv, realLines, gateReals, otherLines, qubitLines, braces]

example : Named (.one (.RX 1) 0 [] []) ∧ Named (.swap 0 1 [] []) ∧ Separates samplePrinter (.one (.RX 0) 0 [] []) (.one (.RX 1) 0 [] []) :=
  ⟨trivial, trivial, by
    intro a ha b hb e
    simp only [gateReals, List.mem_singleton] at ha hb
    subst ha hb
    simp [samplePrinter] at e⟩

end Verif.Props
