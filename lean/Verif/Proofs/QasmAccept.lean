import Verif.Proofs.QasmRun
import Verif.Spec.Qasm

/-! # OpenQASM: which circuits `dumps` accepts -/

namespace Verif.Proofs
open Verif Verif.Spec Verif.Model
attribute [-simp] BitVec.getLsbD_eq_getElem

/-- success exactly if `P`, otherwise an exception -/
def Verdict {α : Type} (x : Res α) (P : Prop) : Prop := (P ∧ ∃ a, x = .ok a) ∨ (¬ P ∧ ∃ s, x = .error (.throw s))

theorem Verdict.congr {α : Type} {x : Res α} {P Q : Prop} (h : Verdict x P) (e : P ↔ Q) : Verdict x Q := by
  unfold Verdict
  rw [← e]
  exact h

theorem Verdict.map {α β : Type} {x : Res α} {P : Prop} (h : Verdict x P) (f : α → β) : Verdict (do let a ← x; pure (f a)) P := by
  rcases h with ⟨h, a, rfl⟩ | ⟨h, s, rfl⟩
  · exact .inl ⟨h, f a, rfl⟩
  · exact .inr ⟨h, s, rfl⟩

theorem Verdict.yes {α : Type} {P : Prop} (a : α) (h : P) : Verdict (.ok a) P := .inl ⟨h, a, rfl⟩
theorem Verdict.no {α : Type} {P : Prop} (s : String) (h : ¬ P) : Verdict (.error (.throw s) : Res α) P := .inr ⟨h, s, rfl⟩

theorem named_verdict {k : Gate1} {name : Text} {q : Nat} {cs vs : List Nat}
    (hn : (name, k) ∈ [(t! "x", Gate1.X), (t! "y", .Y), (t! "z", .Z), (t! "h", .H), (t! "s", .S), (t! "sdg", .Sdag), (t! "t", .T),
      (t! "tdg", .Tdag)]) :
    Verdict (lowerNamed name [q] cs vs) ((∃ m, maxControls k = some m ∧ cs.length ≤ m) ∧ vs.all (· == 1) = true) := by
  unfold lowerNamed
  by_cases hv : vs.all (· == 1) = true
  · rw [if_neg (by simp [hv])]
    simp only [List.mem_cons, Prod.mk.injEq, List.not_mem_nil, or_false] at hn
    rcases hn with ⟨rfl, rfl⟩ | ⟨rfl, rfl⟩ | ⟨rfl, rfl⟩ | ⟨rfl, rfl⟩ | ⟨rfl, rfl⟩ | ⟨rfl, rfl⟩ | ⟨rfl, rfl⟩ | ⟨rfl, rfl⟩ <;>
    · rcases cs with _ | ⟨a, _ | ⟨b, _ | ⟨c, cs⟩⟩⟩ <;>
        simp [singleTarget_one, bind, Except.bind, pure, Except.pure, Verdict, maxControls, hv]
  · rw [if_pos hv]
    exact .no _ fun h => hv h.2

theorem rotation_verdict {lib : Libc} {name : Text} {θ : ℝ} {q : Nat} {cs vs : List Nat} :
    Verdict (lowerRotation lib name θ q cs vs) ((∃ m, some 1 = some m ∧ cs.length ≤ m) ∧ vs.all (· == 1) = true) := by
  unfold lowerRotation
  by_cases hv : vs.all (· == 1) = true
  · rw [if_neg (by simp [hv])]
    rcases cs with _ | ⟨a, _ | ⟨b, cs⟩⟩ <;> simp [Verdict, hv]
  · rw [if_pos hv]
    exact .no _ fun h => hv h.2

theorem u_verdict {lib : Libc} {name : Text} {m : Nat} {ps : List ℝ} {q : Nat} {cs vs : List Nat}
    (hn : (name, m) ∈ [(t! "u1", 1), (t! "u2", 0), (t! "u3", 1)]) :
    Verdict (lowerU lib name ps q cs vs) ((∃ m', some m = some m' ∧ cs.length ≤ m') ∧ vs.all (· == 1) = true) := by
  unfold lowerU
  by_cases hv : vs.all (· == 1) = true
  · rw [if_neg (by simp [hv])]
    simp only [List.mem_cons, Prod.mk.injEq, List.not_mem_nil, or_false] at hn
    rcases hn with ⟨rfl, rfl⟩ | ⟨rfl, rfl⟩ | ⟨rfl, rfl⟩ <;>
    · rcases cs with _ | ⟨a, _ | ⟨b, cs⟩⟩ <;> simp [Verdict, hv]
  · rw [if_pos hv]
    exact .no _ fun h => hv h.2

theorem swap_verdict {a b : Nat} {cs vs : List Nat} :
    Verdict (lowerNamed (t! "swap") [a, b] cs vs) (cs.length ≤ 1 ∧ vs.all (· == 1) = true) := by
  unfold lowerNamed
  by_cases hv : vs.all (· == 1) = true
  · rw [if_neg (by simp [hv])]
    rcases cs with _ | ⟨x, _ | ⟨y, _ | ⟨z, cs⟩⟩⟩ <;> simp [Verdict, hv]
  · rw [if_pos hv]
    exact .no _ fun h => hv h.2

/-- the operands of a gate object are those the factory got -/
theorem operands_from {ts cs vs : List Nat} {o : Operands} (hmk : mkOperands ts cs vs = .ok o) :
    (maskToVector o.c).length = cs.length ∧
      ((maskToVector2 o.c o.v).all (· == 1) = true ↔ ∀ v ∈ effectiveValues cs vs, v = 1) := by
  have hl : (maskToVector o.c).length = cs.length := by
    rw [control_list hmk]
    simp [sortQ]
  refine ⟨hl, ?_⟩
  have hp := control_value_list hmk
  have hlen : (effectiveValues cs vs).length = cs.length := by
    obtain ⟨-, -, -, -, -, h, -⟩ := mkOperands_ok hmk
    exact h.symm
  have h2 := hp.map Prod.snd
  rw [List.map_snd_zip (by simp [maskToVector2]), List.map_snd_zip (by omega)] at h2
  rw [List.all_eq_true]
  constructor
  · intro h v hv
    simpa using h v (h2.mem_iff.2 hv)
  · intro h v hv
    simpa using h v (h2.mem_iff.1 hv)

theorem lowered_verdict {lib : Libc} {i : Instr} {g : Item} (hb : i.build = .ok g) : Verdict (lowered lib g) (Exportable i) := by
  cases i with
  | gate d =>
    obtain ⟨u, hu, hb⟩ := bind_ok (show (do let g ← d.build; pure (Sum.inl (Gate.det g))) = _ from hb)
    cases hb
    unfold lowered classifyItem classifyGate
    dsimp only [UGate.targetQubitList, UGate.controlQubitList, UGate.controlValueList]
    cases d with
    | ident =>
      cases hu
      exact .yes _ trivial
    | one k q cs vs =>
      obtain ⟨o, ho, hu⟩ := bind_ok (show (do let o ← mkOperands [q] cs vs; pure (UGate.one k o)) = _ from hu)
      cases hu
      obtain ⟨hl, hv⟩ := operands_from ho
      have ht : maskToVector o.t = [q] := (target_list ho).trans (by simp [sortQ])
      show Verdict _ ((∃ m, maxControls k = some m ∧ cs.length ≤ m) ∧ ∀ v ∈ effectiveValues cs vs, v = 1)
      rw [← hl, ← hv]
      simp only [show (UGate.one k o).operands = o from rfl, ht, singleTarget_one]
      cases k <;> dsimp only <;> simp only [ok_bind, pure_bind]
      case X => exact (named_verdict (by simp)).map some
      case Y => exact (named_verdict (by simp)).map some
      case Z => exact (named_verdict (by simp)).map some
      case H => exact (named_verdict (by simp)).map some
      case S => exact (named_verdict (by simp)).map some
      case Sdag => exact (named_verdict (by simp)).map some
      case T => exact (named_verdict (by simp)).map some
      case Tdag => exact (named_verdict (by simp)).map some
      case RX => exact rotation_verdict.map some
      case RY => exact rotation_verdict.map some
      case RZ => exact rotation_verdict.map some
      case U1 a => exact (u_verdict (by simp)).map some
      case U2 a b => exact (u_verdict (by simp)).map some
      case U3 a b c => exact (u_verdict (by simp)).map some
      all_goals exact .no _ (by simp [maxControls])
    | swap a b cs vs =>
      obtain ⟨o, ho, hu⟩ := bind_ok (show (do let o ← mkOperands [a, b] cs vs; pure (UGate.swap o)) = _ from hu)
      cases hu
      obtain ⟨hl, hv⟩ := operands_from ho
      have ht : ∃ x y, maskToVector o.t = [x, y] := by
        have h2 : (maskToVector o.t).length = 2 := by rw [target_list ho]; simp [sortQ]
        match h : maskToVector o.t with
        | [x, y] => exact ⟨x, y, rfl⟩
        | [] | [_] | _ :: _ :: _ :: _ => rw [h] at h2; simp at h2
      obtain ⟨x, y, ht⟩ := ht
      show Verdict _ (cs.length ≤ 1 ∧ ∀ v ∈ effectiveValues cs vs, v = 1)
      rw [← hl, ← hv]
      simp only [show (UGate.swap o).operands = o from rfl, ht, ok_bind]
      exact swap_verdict.map some
    | globalPhase p cs vs =>
      obtain ⟨o, ho, hu⟩ := bind_ok (show (do let o ← mkOperands [] cs vs; pure (UGate.globalPhase p o)) = _ from hu)
      cases hu
      exact .no _ (fun h => h)
    | ecr a b cs vs =>
      obtain ⟨o, ho, hu⟩ := bind_ok (show (do let o ← mkEcr a b cs vs; pure (UGate.ecr o)) = _ from hu)
      cases hu
      exact .no _ (fun h => h)
    | perm l =>
      obtain ⟨o, ho, hu⟩ := bind_ok (show (do let o ← mkPerm l; pure (UGate.perm o)) = _ from hu)
      cases hu
      exact .no _ (fun h => h)
    | dense ts M cs vs u =>
      obtain ⟨o, ho, hu⟩ := bind_ok (show (do let o ← mkDense ts M cs vs u; pure (UGate.dense o)) = _ from hu)
      cases hu
      exact .no _ (fun h => h)
    | sparse ts M cs vs =>
      obtain ⟨o, ho, hu⟩ := bind_ok (show (do let o ← mkSparse ts M cs vs; pure (UGate.sparse o)) = _ from hu)
      cases hu
      exact .no _ (fun h => h)
    | pauli p cs vs =>
      obtain ⟨o, ho, hu⟩ := bind_ok (show (do let o ← mkPauli p cs vs; pure (UGate.pauli o)) = _ from hu)
      cases hu
      exact .no _ (fun h => h)
    | pauliRot p a cs vs =>
      obtain ⟨o, ho, hu⟩ := bind_ok (show (do let o ← mkPauli p cs vs; pure (UGate.pauliRot o a)) = _ from hu)
      cases hu
      exact .no _ (fun h => h)
  | choice ps ds =>
    obtain ⟨gs, -, hb⟩ := bind_ok (show (do let gs ← ds.mapM GateDesc.build; let g ← mkProbabilistic (ps.map some) (gs.map .det); pure (Sum.inl g)) = _ from hb)
    obtain ⟨p, hp, hb⟩ := bind_ok hb
    cases hb
    unfold mkProbabilistic at hp
    obtain ⟨t, -, hp⟩ := bind_ok hp
    cases hp
    exact .no _ (fun h => h)
  | measure q b reset =>
    obtain ⟨m, hm, hb⟩ := bind_ok (show (do let m ← mkMeas q b reset; pure (Sum.inl (Gate.meas m))) = _ from hb)
    cases hb
    unfold mkMeas at hm
    obtain ⟨t, ht, hm⟩ := bind_ok hm
    obtain ⟨o, ho, hm⟩ := bind_ok hm
    cases hm
    have hmk : mkOperands [q] [] [] = .ok o := by
      unfold mkOperands
      rw [show resizeAndCheckControlValues [] [] = .ok [] from rfl, ok_bind, ht, ok_bind]
      exact ho
    have hts : maskToVector o.t = [q] := (target_list hmk).trans (by simp [sortQ])
    unfold lowered classifyItem classifyGate
    dsimp only
    rw [hts, singleTarget_one, ok_bind]
    cases reset with
    | true => exact .no _ (by simp [Exportable])
    | false => exact .yes _ rfl
  | rot r key =>
    obtain ⟨m, hm, hb⟩ := bind_ok (show (do let p ← r.build; pure (Sum.inr (PGate.rot p, key))) = _ from hb)
    cases hb
    exact .no _ (fun h => h)
  | pchoice ps ls key =>
    obtain ⟨gs, -, hb⟩ := bind_ok (show (do let gs ← ls.mapM LeafDesc.build; let p ← mkParamProbabilistic (ps.map some) gs; pure (Sum.inr (p, key))) = _ from hb)
    obtain ⟨p, -, hb⟩ := bind_ok hb
    cases hb
    exact .no _ (fun h => h)

/-! ## the whole circuit -/

theorem mapM_verdict {lib : Libc} {is : List Instr} {gs : List Item} (hb : is.mapM (fun i => i.build) = .ok gs) (s : Nat × Nat × Text) :
    Verdict (gs.foldlM (dumpStep lib) s) (∀ i ∈ is, Exportable i) := by
  induction is generalizing gs s with
  | nil =>
    cases hb
    exact .yes _ (by simp)
  | cons i is ih =>
    rw [List.mapM_cons] at hb
    obtain ⟨g, hg, hb⟩ := bind_ok hb
    obtain ⟨gs', hgs, hb⟩ := bind_ok hb
    cases hb
    rw [List.foldlM_cons, dumpStep_eq]
    rcases lowered_verdict (lib := lib) hg with ⟨h, a, ha⟩ | ⟨h, e, ha⟩
    · rw [ha, ok_bind]
      have key : ∀ s', Verdict (gs'.foldlM (dumpStep lib) s') (∀ j ∈ i :: is, Exportable j) := fun s' =>
        (ih hgs s').congr ⟨fun hj => List.forall_mem_cons.2 ⟨h, hj⟩, fun hj => (List.forall_mem_cons.1 hj).2⟩
      cases a with
      | none => exact key s
      | some op => exact key _
    · rw [ha]
      exact .no e fun hj => h (List.forall_mem_cons.1 hj).1

theorem dumps_verdict {lib : Libc} {ls : List Line} {C : Circuit} (hb : buildCircuit ls = .ok C) (hC : ∀ g ∈ C.gates, FromFactory g)
    (nq : Option Nat) :
    Verdict (dumps lib C nq) ((∀ l ∈ ls, Exportable l.instr) ∧ C.requiredQubits ≤ nq.getD C.requiredQubits ∧ nq.getD C.requiredQubits ≠ 0) := by
  obtain ⟨gs, hgs, rfl⟩ := buildCircuit_ok hb
  have hm : (ls.map fun l => l.instr).mapM (fun i => i.build) = .ok gs := by
    rw [List.mapM_map]
    exact hgs
  unfold dumps
  rcases mapM_verdict (lib := lib) hm (0, 0, []) with ⟨h, ⟨rq, rc, body⟩, ha⟩ | ⟨h, e, ha⟩
  · have h' : ∀ l ∈ ls, Exportable l.instr := fun l hl => h _ (List.mem_map_of_mem hl)
    dsimp only
    rw [ha, ok_bind]
    obtain ⟨ops, e1, -, e3, -⟩ := dump_loop ha
    have hr := required_eq (C := ⟨gs, _⟩) hC e1
    rw [← e3] at hr
    dsimp only at hr ⊢
    rw [← hr]
    cases nq with
    | none =>
      rw [if_neg (by simp)]
      by_cases h0 : rq = 0
      · rw [if_pos (by simpa using h0)]
        exact .no _ (by simp [h0])
      · rw [if_neg (by simpa using h0)]
        exact .yes _ ⟨h', by simp, by simpa using h0⟩
    | some n =>
      by_cases hlt : n < rq
      · rw [if_pos (by simpa using hlt)]
        exact .no _ (by simp; omega)
      · rw [if_neg (by simpa using hlt)]
        by_cases h0 : n = 0
        · rw [if_pos (by simpa using h0)]
          exact .no _ (by simp [h0])
        · rw [if_neg (by simpa using h0)]
          exact .yes _ ⟨h', by simpa using hlt, by simpa using h0⟩
  · dsimp only
    rw [ha]
    refine .no e fun hj => h ?_
    intro i hi
    obtain ⟨l, hl, rfl⟩ := List.mem_map.1 hi
    exact hj.1 l hl

end Verif.Proofs
