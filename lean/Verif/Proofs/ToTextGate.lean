import Verif.Proofs.ToTextLines
import Verif.Proofs.Gate2
import Verif.Proofs.PauliCtor
import Verif.Proofs.Perm

/-! # The lines written by `to_string` of gates -/

namespace Verif.Proofs
open Verif Verif.Model Verif.Spec
attribute [-simp] BitVec.getLsbD_eq_getElem

/-- the lines of the masks -/
def maskLines (o : Operands) : List (List Char) := qubitLines (maskToVector o.t) (maskToVector o.c) (maskToVector2 o.c o.v)

theorem qubitInfo_lines {indent : List Char} (hi : '\n' ∉ indent) (o : Operands) :
    textLines (qubitInfo indent o) = (maskLines o).map (indent ++ ·) := by
  unfold qubitInfo
  rw [listLine_eq, listLine_eq, listLine_eq, textLines_cons (by simp [hi, braces_plain]), textLines_cons (by simp [hi, braces_plain]),
    textLines_one (by simp [hi, braces_plain])]
  rfl

theorem typeLine_lines {indent name : List Char} (hi : '\n' ∉ indent) (hn : '\n' ∉ name) (rest : List Char) :
    textLines (typeLine indent name ++ rest) = (indent ++ (t! "Gate Type: " ++ name)) :: textLines rest := by
  unfold typeLine
  rw [show indent ++ (t! "Gate Type: " ++ (name ++ t! "\n")) ++ rest = (indent ++ (t! "Gate Type: " ++ name)) ++ '\n' :: rest by simp]
  exact textLines_cons (by simp [hi, hn]) _

theorem paramLines_lines {num : ℝ → List Char} (h : PrintsNumbers num) {indent : List Char} (hi : '\n' ∉ indent) (ps : List (List Char × ℝ))
    (hp : ∀ a ∈ ps, '\n' ∉ a.1) (rest : List Char) :
    textLines (paramLines num indent ps ++ rest) = (ps.map fun a => indent ++ (t! "  " ++ a.1 ++ t! ": " ++ num a.2)) ++ textLines rest := by
  have hnum := prints_avoid h (c := '\n') (by decide) (by decide)
  rw [← textLines_flatten (fun a : List Char × ℝ => indent ++ (t! "  " ++ a.1 ++ t! ": " ++ num a.2)) ps
    (fun a ha => by simp [hi, hp a ha, hnum])]
  unfold paramLines
  congr 3
  refine List.map_congr_left fun a _ => ?_
  simp

theorem title_plain (d : GateDesc) : '\n' ∉ gateTitle d := by
  cases d with
  | one k q cs vs => cases k <;> simp [gateTitle]
  | _ => simp [gateTitle]

theorem reals_plain (d : GateDesc) : ∀ a ∈ gateReals d, '\n' ∉ a.1 := by
  cases d with
  | one k q cs vs => cases k <;> simp [gateReals]
  | globalPhase p cs vs => simp [gateReals]
  | pauliRot p a cs vs => simp [gateReals]
  | _ => intro a ha; cases ha

/-- title, real parameters, further lines -/
theorem shape_lines {num : ℝ → List Char} (h : PrintsNumbers num) {indent : List Char} (hi : '\n' ∉ indent) (d : GateDesc) (rest : List Char) :
    textLines (typeLine indent (gateTitle d) ++ (paramLines num indent (gateReals d) ++ rest)) =
      (titleLine d :: realLines num d).map (indent ++ ·) ++ textLines rest := by
  rw [typeLine_lines hi (title_plain d), paramLines_lines h hi _ (reals_plain d)]
  unfold realLines
  rw [List.map_cons, List.map_map]
  rfl

theorem IsBit.vector {m : U64} {q : Nat} (h : IsBit m q) : maskToVector m = [q] := by
  rw [maskToVector_eq (ts := [q]) (by simp) (fun i => by rw [h.2 i]; simp)]
  simp [sortQ]

theorem gate1_text (num : ℝ → List Char) (indent : List Char) {k : Gate1} {q : Nat} {cs vs : List Nat} (o : Operands) (h : NotU2 (.one k q cs vs)) :
    gate1Text num indent k o = typeLine indent (gateTitle (.one k q cs vs)) ++ (paramLines num indent (gateReals (.one k q cs vs)) ++ qubitInfo indent o) := by
  cases k with
  | U2 p l => exact h.elim
  | _ => rfl

theorem gate_lines {num : ℝ → List Char} (h : PrintsNumbers num) {indent : List Char} (hi : '\n' ∉ indent) {d : GateDesc} {g : UGate}
    (hb : d.build = .ok g) (hp : NotPauli d) (hu : NotU2 d) :
    ∃ s, g.text num indent = .ok s ∧ textLines s = (titleLine d :: (realLines num d ++ otherLines d ++ maskLines g.operands)).map (indent ++ ·) := by
  cases d with
  | ident =>
    cases hb
    refine ⟨_, rfl, (shape_lines h hi GateDesc.ident (qubitInfo indent (⟨0, 0, 0⟩ : Operands))).trans ?_⟩
    rw [qubitInfo_lines hi]
    rfl
  | globalPhase p cs vs =>
    obtain ⟨o, ho, hb⟩ := bind_ok hb
    cases hb
    refine ⟨_, rfl, (shape_lines h hi (GateDesc.globalPhase p cs vs) (qubitInfo indent o)).trans ?_⟩
    rw [qubitInfo_lines hi]
    rfl
  | one k q cs vs =>
    obtain ⟨o, ho, hb⟩ := bind_ok hb
    cases hb
    refine ⟨_, rfl, ?_⟩
    rw [gate1_text num indent o hu, shape_lines h hi, qubitInfo_lines hi, ← List.map_append]
    simp [UGate.operands, otherLines]
  | swap a b cs vs =>
    obtain ⟨o, ho, hb⟩ := bind_ok hb
    cases hb
    refine ⟨_, rfl, (shape_lines h hi (GateDesc.swap a b cs vs) (qubitInfo indent o)).trans ?_⟩
    rw [qubitInfo_lines hi]
    rfl
  | ecr c t cs vs =>
    obtain ⟨e, he, hb⟩ := bind_ok hb
    cases hb
    obtain ⟨-, hc, ht⟩ := mkEcr_ok he
    refine ⟨typeLine indent (t! "Ecr") ++ (indent ++ (t! "  Physical Control Qubit: {" ++ (decimal c ++ (t! "}\n" ++
      (indent ++ (t! "  Physical Target Qubit: {" ++ (decimal t ++ (t! "}\n" ++ qubitInfo indent e.o)))))))), ?_, ?_⟩
    · rw [UGate.text, IsBit.vector hc, IsBit.vector ht]
      rfl
    · have hn : ∀ n, '\n' ∉ numeral n := fun n => numeral_avoid (by decide)
      rw [typeLine_lines hi (by decide), decimal_numeral, decimal_numeral,
        show indent ++ (t! "  Physical Control Qubit: {" ++ (numeral c ++ (t! "}\n" ++ (indent ++ (t! "  Physical Target Qubit: {" ++
          (numeral t ++ (t! "}\n" ++ qubitInfo indent e.o))))))) =
          (indent ++ (t! "  Physical Control Qubit: " ++ braces [c])) ++ '\n' :: ((indent ++ (t! "  Physical Target Qubit: " ++ braces [t])) ++ '\n' ::
            qubitInfo indent e.o) by simp [braces],
        textLines_cons (by simp [hi, braces_plain]), textLines_cons (by simp [hi, braces_plain]), qubitInfo_lines hi]
      rfl
  | perm dst =>
    obtain ⟨e, he, hb⟩ := bind_ok hb
    cases hb
    obtain ⟨hk, hc⟩ := mkPerm_ok he
    have hd : e.dst = dst := by
      unfold permCtor at hc
      obtain ⟨m, hm, hc⟩ := bind_ok hc
      obtain ⟨o, hm, hc⟩ := bind_ok hc
      obtain ⟨one, hm, hc⟩ := bind_ok hc
      split at hc
      · cases hc
      · obtain ⟨s, hm, hc⟩ := bind_ok hc
        cases hc
        rfl
    refine ⟨_, rfl, ?_⟩
    rw [hd, typeLine_lines hi (by decide), permLoop_eq,
      show indent ++ (t! "Permutation: [" ++ ((t! ", ").intercalate (dst.map numeral) ++ (t! "]\n" ++ qubitInfo indent e.o))) =
        (indent ++ (t! "Permutation: [" ++ (t! ", ").intercalate (dst.map numeral) ++ t! "]")) ++ '\n' :: qubitInfo indent e.o by simp,
      textLines_cons (by simp [hi, commas_plain (c := '\n') (by decide) (by decide) (by decide)]), qubitInfo_lines hi]
    rfl
  | dense ts M cs vs u =>
    obtain ⟨e, he, hb⟩ := bind_ok hb
    cases hb
    refine ⟨_, rfl, (shape_lines h hi (GateDesc.dense ts M cs vs u) (qubitInfo indent e.o)).trans ?_⟩
    rw [qubitInfo_lines hi]
    rfl
  | sparse ts M cs vs =>
    obtain ⟨e, he, hb⟩ := bind_ok hb
    cases hb
    refine ⟨_, rfl, (shape_lines h hi (GateDesc.sparse ts M cs vs) (qubitInfo indent e.o)).trans ?_⟩
    rw [qubitInfo_lines hi]
    rfl
  | pauli p cs vs => exact hp.elim
  | pauliRot p a cs vs => exact hp.elim

theorem u2_lines {num : ℝ → List Char} (h : PrintsNumbers num) {indent : List Char} (hi : '\n' ∉ indent) {p l : ℝ} {q : Nat} {cs vs : List Nat} {g : UGate}
    (hb : (GateDesc.one (.U2 p l) q cs vs).build = .ok g) :
    ∃ s, g.text num indent = .ok s ∧ textLines s = (realLines num (.one (.U2 p l) q cs vs) ++ titleLine (.one (.U2 p l) q cs vs) ::
      maskLines g.operands).map (indent ++ ·) := by
  obtain ⟨o, ho, hb⟩ := bind_ok hb
  cases hb
  refine ⟨_, rfl, ?_⟩
  rw [gate1Text, paramLines_lines h hi [(t! "Phi", p), (t! "Lambda", l)] (by simp), typeLine_lines hi (by decide), qubitInfo_lines hi]
  unfold realLines
  rw [List.map_append, List.map_map]
  rfl

theorem pauliGate_lines {num : ℝ → List Char} (h : PrintsNumbers num) {indent : List Char} (hi : '\n' ∉ indent) (d : GateDesc) (g : PauliGate) :
    ∃ s, pauliText indent (gateTitle d) (paramLines num indent (gateReals d)) g = .ok s ∧ textLines s =
      (titleLine d :: (realLines num d ++ [t! "  Control Qubits: " ++ braces (maskToVector g.o.c), t! "  Pauli Operator: \"" ++ letters g.p ++ t! "\""])).map
        (indent ++ ·) := by
  unfold pauliText
  rw [(letters_spec g.p).1, ok_bind]
  refine ⟨_, rfl, ?_⟩
  have hl := (letters_spec g.p).2.2.1
  rw [shape_lines h hi, listLine_eq, textLines_cons (by simp [hi, braces_plain]), textLines_one (by simp [hi, hl])]
  simp

end Verif.Proofs
