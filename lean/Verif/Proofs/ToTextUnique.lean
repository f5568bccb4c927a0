import Verif.Proofs.ToTextGate

/-! # What the text of a gate determines -/

namespace Verif.Proofs
open Verif Verif.Model Verif.Spec
attribute [-simp] BitVec.getLsbD_eq_getElem

theorem maskLines_injective {o o' : Operands} (ho : OperandsOK o) (ho' : OperandsOK o') (h : maskLines o = maskLines o') : o = o' := by
  unfold maskLines qubitLines at h
  simp only [List.cons.injEq, List.append_cancel_left_eq, and_true] at h
  obtain ⟨h1, h2, h3⟩ := h
  have e := mkOperands_self ho
  rw [braces_injective h1, braces_injective h2, braces_injective h3, mkOperands_self ho'] at e
  exact (Except.ok.inj e).symm

theorem one_kind {num : ℝ → List Char} {k k' : Gate1} {q q' : Nat} {cs vs cs' vs' : List Nat}
    (ht : gateTitle (.one k q cs vs) = gateTitle (.one k' q' cs' vs')) (hr : realLines num (.one k q cs vs) = realLines num (.one k' q' cs' vs'))
    (hn : Separates num (.one k q cs vs) (.one k' q' cs' vs')) : k = k' := by
  unfold Separates at hn
  unfold realLines at hr
  cases k <;> cases k' <;> first
    | rfl
    | (exfalso; revert ht; simp [gateTitle]; done)
    | (simp [gateReals] at hr hn ⊢; tauto)

theorem title_one {k : Gate1} {q : Nat} {cs vs : List Nat} {d : GateDesc} (h : gateTitle (.one k q cs vs) = gateTitle d) :
    ∃ k' q' cs' vs', d = .one k' q' cs' vs' := by
  cases d with
  | one k' q' cs' vs' => exact ⟨_, _, _, _, rfl⟩
  | _ => exfalso; revert h; cases k <;> simp [gateTitle]

theorem named_pauli {d : GateDesc} (h : Named d) : NotPauli d := by
  cases d <;> first | exact h.elim | trivial

theorem maskLines_length (o : Operands) : (maskLines o).length = 3 := rfl

theorem same_gate {num : ℝ → List Char} {d d' : GateDesc} {g g' : UGate} (hb : d.build = .ok g) (hb' : d'.build = .ok g') (hd : Named d) (hd' : Named d')
    (hn : Separates num d d') (ht : gateTitle d = gateTitle d') (hr : realLines num d ++ otherLines d = realLines num d' ++ otherLines d')
    (hm : maskLines g.operands = maskLines g'.operands) : g = g' := by
  obtain ⟨ts, h1, -⟩ := build_operands hb
  obtain ⟨ts', h1', -⟩ := build_operands hb'
  have ho := maskLines_injective (operandsOK_of h1) (operandsOK_of h1') hm
  clear h1 h1' hm
  cases d with
  | one k q cs vs =>
    obtain ⟨k', q', cs', vs', rfl⟩ := title_one ht
    obtain ⟨o, -, hb⟩ := bind_ok hb
    cases hb
    obtain ⟨o', -, hb'⟩ := bind_ok hb'
    cases hb'
    rw [one_kind ht (by simpa [otherLines] using hr) hn, show o = o' from ho]
  | ident =>
    cases d' with
    | ident => cases hb; cases hb'; rfl
    | one k q cs vs => obtain ⟨_, _, _, _, h⟩ := title_one ht.symm; cases h
    | _ => exfalso; revert ht; simp [gateTitle]
  | globalPhase p cs vs =>
    cases d' with
    | globalPhase p' cs' vs' =>
      obtain ⟨o, -, hb⟩ := bind_ok hb
      cases hb
      obtain ⟨o', -, hb'⟩ := bind_ok hb'
      cases hb'
      have e : p = p' := by
        unfold Separates at hn
        unfold realLines at hr
        simp [gateReals, otherLines] at hr hn
        exact hn hr
      rw [e, show o = o' from ho]
    | one k q cs vs => obtain ⟨_, _, _, _, h⟩ := title_one ht.symm; cases h
    | _ => exfalso; revert ht; simp [gateTitle]
  | swap a b cs vs =>
    cases d' with
    | swap a' b' cs' vs' =>
      obtain ⟨o, -, hb⟩ := bind_ok hb
      cases hb
      obtain ⟨o', -, hb'⟩ := bind_ok hb'
      cases hb'
      rw [show o = o' from ho]
    | one k q cs vs => obtain ⟨_, _, _, _, h⟩ := title_one ht.symm; cases h
    | _ => exfalso; revert ht; simp [gateTitle]
  | ecr c t cs vs =>
    cases d' with
    | ecr c' t' cs' vs' =>
      obtain ⟨e, he, hb⟩ := bind_ok hb
      cases hb
      obtain ⟨e', he', hb'⟩ := bind_ok hb'
      cases hb'
      obtain ⟨-, h2, h3⟩ := mkEcr_ok he
      obtain ⟨-, h2', h3'⟩ := mkEcr_ok he'
      simp only [realLines, gateReals, List.map_nil, List.nil_append, otherLines, List.cons.injEq, List.append_cancel_left_eq, and_true] at hr
      have e1 := braces_injective hr.1
      have e2 := braces_injective hr.2
      simp only [List.cons.injEq, and_true] at e1 e2
      subst e1 e2
      obtain ⟨o, pc, pt⟩ := e
      obtain ⟨o', pc', pt'⟩ := e'
      simp only at h2 h3 h2' h3'
      rw [show o = o' from ho, h2.eq, h2'.eq, h3.eq, h3'.eq]
    | one k q cs vs => obtain ⟨_, _, _, _, h⟩ := title_one ht.symm; cases h
    | _ => exfalso; revert ht; simp [gateTitle]
  | perm dst =>
    cases d' with
    | perm dst' =>
      simp only [realLines, gateReals, List.map_nil, List.nil_append, otherLines, List.cons.injEq, and_true, List.append_cancel_right_eq,
        List.append_cancel_left_eq] at hr
      rw [commas_injective hr, hb'] at hb
      exact (Except.ok.inj hb).symm
    | one k q cs vs => obtain ⟨_, _, _, _, h⟩ := title_one ht.symm; cases h
    | _ => exfalso; revert ht; simp [gateTitle]
  | dense ts M cs vs u => exact hd.elim
  | sparse ts M cs vs => exact hd.elim
  | pauli p cs vs => exact hd.elim
  | pauliRot p a cs vs => exact hd.elim

theorem map_indent {indent : List Char} {l l' : List (List Char)} (h : l.map (indent ++ ·) = l'.map (indent ++ ·)) : l = l' :=
  List.map_injective_iff.2 (fun _ _ e => List.append_cancel_left e) h

theorem text_determines {num : ℝ → List Char} (h : PrintsNumbers num) {indent : List Char} (hi : '\n' ∉ indent) {d d' : GateDesc} {g g' : UGate}
    (hb : d.build = .ok g) (hb' : d'.build = .ok g') (hd : Named d) (hd' : Named d') (hn : Separates num d d')
    (ht : g.text num indent = g'.text num indent) : g = g' := by
  by_cases hu : NotU2 d <;> by_cases hu' : NotU2 d'
  · obtain ⟨s, e1, e2⟩ := gate_lines h hi hb (named_pauli hd) hu
    obtain ⟨s', e1', e2'⟩ := gate_lines h hi hb' (named_pauli hd') hu'
    rw [ht, e1'] at e1
    obtain rfl := Except.ok.inj e1
    rw [e2'] at e2
    have e3 := map_indent e2
    rw [List.cons.injEq] at e3
    obtain ⟨e3, e4⟩ := e3
    obtain ⟨e4, e5⟩ := List.append_inj' e4 (by rw [maskLines_length, maskLines_length])
    unfold titleLine at e3
    exact same_gate hb hb' hd hd' hn (List.append_cancel_left e3).symm e4.symm e5.symm
  · cases d' with
    | one k q cs vs =>
      cases k with
      | U2 p l =>
        obtain ⟨s, e1, e2⟩ := gate_lines h hi hb (named_pauli hd) hu
        obtain ⟨s', e1', e2'⟩ := u2_lines h hi hb'
        rw [ht, e1'] at e1
        obtain rfl := Except.ok.inj e1
        rw [e2'] at e2
        have e3 := map_indent e2
        simp [realLines, gateReals, titleLine] at e3
      | _ => exact absurd trivial hu'
    | _ => exact absurd trivial hu'
  · cases d with
    | one k q cs vs =>
      cases k with
      | U2 p l =>
        obtain ⟨s, e1, e2⟩ := u2_lines h hi hb
        obtain ⟨s', e1', e2'⟩ := gate_lines h hi hb' (named_pauli hd') hu'
        rw [ht, e1'] at e1
        obtain rfl := Except.ok.inj e1
        rw [e2'] at e2
        have e3 := map_indent e2
        simp [realLines, gateReals, titleLine] at e3
      | _ => exact absurd trivial hu
    | _ => exact absurd trivial hu
  · cases d with
    | one k q cs vs =>
      cases k with
      | U2 p l =>
        cases d' with
        | one k' q' cs' vs' =>
          cases k' with
          | U2 p' l' =>
            obtain ⟨s, e1, e2⟩ := u2_lines h hi hb
            obtain ⟨s', e1', e2'⟩ := u2_lines h hi hb'
            rw [ht, e1'] at e1
            obtain rfl := Except.ok.inj e1
            rw [e2'] at e2
            have e3 := map_indent e2
            obtain ⟨e4, e5⟩ := List.append_inj e3 rfl
            exact same_gate hb hb' hd hd' hn rfl (by simpa [otherLines] using e4.symm) (List.cons.inj e5).2.symm
          | _ => exact absurd trivial hu'
        | _ => exact absurd trivial hu'
      | _ => exact absurd trivial hu
    | _ => exact absurd trivial hu

end Verif.Proofs
