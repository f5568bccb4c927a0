import Verif.Proofs.JsonCircuit

/-! # JSON: the invariant holds for everything the interface builds; classes without reader -/

namespace Verif.Proofs
open Verif Verif.Spec Verif.Model
attribute [-simp] BitVec.getLsbD_eq_getElem

theorem permCtor_stored {dst : List Nat} {g : PermGate} (h : permCtor dst = .ok g) : permCtor g.dst = .ok g ∧ g.dst.length < 64 := by
  have h0 := h
  unfold permCtor at h
  obtain ⟨mask, -, h⟩ := bind_ok h
  obtain ⟨o, ho, h⟩ := bind_ok h
  obtain ⟨one, h1, h⟩ := bind_ok h
  split at h
  · cases h
  · obtain ⟨s, hs, h⟩ := bind_ok h
    cases h
    refine ⟨h0, ?_⟩
    unfold shl1 at h1
    split at h1
    · assumption
    · cases h1

theorem pauli_stored {p : PauliOp} {cs vs : List Nat} {g : PauliGate} (h : mkPauli p cs vs = .ok g) :
    OperandsOK g.o ∧ g.o.t = g.p.x ||| g.p.z := by
  obtain ⟨h1, h2⟩ := mkPauli_ok h
  refine ⟨operandsOK_of h2, ?_⟩
  unfold mkPauli at h
  obtain ⟨a, ha, h⟩ := bind_ok h
  obtain ⟨c, hc, h⟩ := bind_ok h
  obtain ⟨v, hv, h⟩ := bind_ok h
  obtain ⟨o, ho, h⟩ := bind_ok h
  cases h
  unfold gateBase at ho
  split at ho
  · cases ho
  · cases ho
    rfl

theorem stored_build {d : GateDesc} {g : UGate} (h : d.build = .ok g) : Stored g := by
  cases d with
  | ident => cases h; trivial
  | globalPhase phase cs vs =>
    obtain ⟨o, ho, h⟩ := bind_ok h
    cases h
    refine ⟨operandsOK_of ho, ?_⟩
    obtain ⟨-, -, -, -, -, -, -, tb, -, -⟩ := mkOperands_ok ho
    apply U64.ext
    intro i _
    rw [tb]
    simp
  | one k q cs vs => obtain ⟨o, ho, h⟩ := bind_ok h; cases h; exact operandsOK_of ho
  | swap a b cs vs => obtain ⟨o, ho, h⟩ := bind_ok h; cases h; exact operandsOK_of ho
  | ecr a b cs vs =>
    obtain ⟨g, hg, h⟩ := bind_ok h
    cases h
    unfold mkEcr at hg
    obtain ⟨o, ho, hg⟩ := bind_ok hg
    obtain ⟨pc, _, hg⟩ := bind_ok hg
    obtain ⟨pt, _, hg⟩ := bind_ok hg
    cases hg
    exact operandsOK_of ho
  | perm dst =>
    obtain ⟨g, hg, h⟩ := bind_ok h
    cases h
    unfold mkPerm at hg
    dsimp only at hg
    split at hg
    · cases hg
    · obtain ⟨e, _, hg⟩ := bind_ok hg
      obtain ⟨m, _, hg⟩ := bind_ok hg
      split at hg
      · cases hg
      · exact (permCtor_stored hg).1
  | dense => obtain ⟨g, hg, h⟩ := bind_ok h; cases h; trivial
  | sparse => obtain ⟨g, hg, h⟩ := bind_ok h; cases h; trivial
  | pauli => obtain ⟨g, hg, h⟩ := bind_ok h; cases h; exact pauli_stored hg
  | pauliRot => obtain ⟨g, hg, h⟩ := bind_ok h; cases h; exact pauli_stored hg

theorem stored_inverse {g g' : UGate} (hs : Stored g) (h : g.inverse = .ok g') : Stored g' := by
  cases g with
  | ident => cases h; exact hs
  | globalPhase => cases h; exact hs
  | one k o => obtain ⟨k', hk, h⟩ := bind_ok (show (do let k' ← gate1Inverse k; pure (UGate.one k' o)) = .ok g' from h); cases h; exact hs
  | swap => cases h; exact hs
  | ecr => cases h; exact hs
  | perm g =>
    obtain ⟨p, hp, h⟩ := bind_ok (show (do let k' ← permInverse g; pure (UGate.perm k')) = .ok g' from h)
    cases h
    obtain ⟨inv, p', h1, h2, -⟩ := permInverse_ok (permCtor_stored hs).2 hs
    rw [hp] at h1
    cases h1
    exact (permCtor_stored h2).1
  | dense g =>
    obtain ⟨p, hp, h⟩ := bind_ok (show (do let k' ← denseInverse g; pure (UGate.dense k')) = .ok g' from h)
    cases h
    trivial
  | sparse => cases h
  | pauli => cases h; exact hs
  | pauliRot => cases h; exact hs

theorem component_fit {g : Gate} (h : GateFit g) : CompFit Stored g.component := by
  cases g with
  | det => exact h
  | prob => exact h
  | meas => trivial

theorem fit_meas {q cbit : Nat} {reset : Bool} {g : MeasGate} (h : mkMeas q cbit reset = .ok g) : GateFit (.meas g) := by
  unfold mkMeas at h
  obtain ⟨t, ht, h⟩ := bind_ok h
  obtain ⟨o, ho, h⟩ := bind_ok h
  cases h
  unfold gateBase at ho
  split at ho
  · cases ho
  · cases ho
    exact ⟨t, rfl⟩

theorem fit_prob {ds : List (Option ℝ)} {gs : List Gate} {g : Gate} (h : mkProbabilistic ds gs = .ok g) (hg : ∀ x ∈ gs, GateFit x) :
    GateFit g := by
  unfold mkProbabilistic at h
  obtain ⟨t, ht, h⟩ := bind_ok h
  cases h
  refine table_fit ht ?_
  intro c hc
  obtain ⟨x, hx, rfl⟩ := List.mem_map.1 hc
  exact component_fit (hg x hx)

theorem mapM_mem {α β : Type} {f : α → Res β} {l : List α} {us : List β} (h : l.mapM f = .ok us) : ∀ u ∈ us, ∃ a ∈ l, f a = .ok u := by
  obtain ⟨h1, h2⟩ := mapM_get f h
  intro u hu
  obtain ⟨i, hi, rfl⟩ := List.getElem_of_mem hu
  obtain ⟨b, h3, h4⟩ := h2 i (l[i]'(by omega)) (List.getElem?_eq_getElem _)
  rw [List.getElem?_eq_getElem hi] at h3
  cases h3
  exact ⟨_, List.getElem_mem _, h4⟩

theorem fit_inverse {g g' : Gate} (hf : GateFit g) (h : g.inverse = .ok g') : GateFit g' := by
  cases g with
  | det u =>
    obtain ⟨u', hu, h⟩ := bind_ok (show (do let g' ← u.inverse; pure (Gate.det g')) = .ok g' from h)
    cases h
    exact stored_inverse hf hu
  | prob t =>
    obtain ⟨t', ht, h⟩ := bind_ok (show (do let t' ← t.inverse; pure (Gate.prob t')) = .ok g' from h)
    cases h
    unfold ProbTable.inverse at ht
    obtain ⟨gs, hgs, ht⟩ := bind_ok ht
    refine table_fit ht ?_
    intro c hc
    obtain ⟨x, hx, rfl⟩ := List.mem_map.1 hc
    obtain ⟨a, ha, hi⟩ := mapM_mem hgs x hx
    exact stored_inverse (TableFit.all hf a ha) hi
  | meas => cases h

/-! ## parametric gates -/

theorem fit_axis {a : RotAxis} {q : Nat} {k : ℝ} {cs vs : List Nat} {r : PRot} (h : mkAxis a q k cs vs = .ok r) : RotFit r := by
  unfold mkAxis at h
  obtain ⟨o, ho, h⟩ := bind_ok h
  cases h
  exact operandsOK_of ho

theorem fit_paramPauli {p : PauliOp} {k : ℝ} {cs vs : List Nat} {r : PRot} (h : mkParamPauli p k cs vs = .ok r) : RotFit r := by
  unfold mkParamPauli at h
  obtain ⟨o, ho, h⟩ := bind_ok h
  cases h
  exact pauli_stored ho

theorem rotFit_inverse {r : PRot} (h : RotFit r) : RotFit r.inverse := by
  cases r <;> exact h

def EitherFit : Gate ⊕ PGate → Prop
  | .inl g => GateFit g
  | .inr g => PGateFit g

theorem either_fit {x : Gate ⊕ PGate} (h : EitherFit x) : CompFit LeafFit (eitherComponent x) := by
  rcases x with (u | t | m) | (r | t)
  · exact h
  · have h : TableFit t Stored := h
    refine ⟨⟨by simpa using h.ok.len, by simpa using h.ok.pos, h.ok.nonneg, h.ok.cum, h.ok.sum⟩, h.le, ?_⟩
    intro g hg
    obtain ⟨u, hu, rfl⟩ := List.mem_map.1 hg
    exact h.all u hu
  · trivial
  · exact h
  · exact h

theorem fit_pprob {ds : List (Option ℝ)} {gs : List (Gate ⊕ PGate)} {g : PGate} (h : mkParamProbabilistic ds gs = .ok g)
    (hg : ∀ x ∈ gs, EitherFit x) : PGateFit g := by
  unfold mkParamProbabilistic at h
  obtain ⟨t, ht, h⟩ := bind_ok h
  cases h
  refine table_fit ht ?_
  intro c hc
  obtain ⟨x, hx, rfl⟩ := List.mem_map.1 hc
  exact either_fit (hg x hx)

theorem leafFit_inverse {u u' : PLeaf} (hf : LeafFit u) (h : u.inverse = .ok u') : LeafFit u' := by
  cases u with
  | fixed g =>
    obtain ⟨g', hg, h⟩ := bind_ok (show (do let g' ← g.inverse; pure (PLeaf.fixed g')) = .ok u' from h)
    cases h
    exact stored_inverse hf hg
  | rot r => cases h; exact rotFit_inverse hf

theorem pfit_inverse {g g' : PGate} (hf : PGateFit g) (h : g.inverse = .ok g') : PGateFit g' := by
  cases g with
  | rot r => cases h; exact rotFit_inverse hf
  | prob t =>
    obtain ⟨gs, hgs, h⟩ := bind_ok (show (do
      let gs ← t.gates.mapM PLeaf.inverse
      let t' ← mkProbTable (t.dist.map some) (gs.map .leaf)
      pure (PGate.prob t')) = .ok g' from h)
    obtain ⟨t', ht, h⟩ := bind_ok h
    cases h
    refine table_fit ht ?_
    intro c hc
    obtain ⟨x, hx, rfl⟩ := List.mem_map.1 hc
    obtain ⟨a, ha, hi⟩ := mapM_mem hgs x hx
    exact leafFit_inverse (TableFit.all hf a ha) hi

/-! ## classes without reader -/

theorem noReader_throws {u : UGate} (h : ¬ HasReader u) {j : Json} (hj : u.toJson = .ok j) :
    (∃ m, Gate.ofJson j = .error (.throw m)) ∧ ∃ type, j.typeName = .ok type ∧ (t! "Param").isPrefixOf type = false := by
  have key : ∀ (type : Text) (rest : List (Text × Json)), type ≠ t! "Measurement" → type ≠ t! "Probabilistic" →
      (∀ x, readUGate type x = none) → ∃ m, Gate.ofJson (.obj (typeField type ++ rest)) = .error (.throw m) := by
    intro type rest h1 h2 h3
    rw [Gate.ofJson.eq_1]
    have h4 : (Json.obj (typeField type ++ rest)).typeName = .ok type := rfl
    rw [h4]
    dsimp only
    rw [if_neg h1, if_neg h2, h3]
    exact ⟨_, rfl⟩
  cases u with
  | one k o =>
    cases k with
    | P0 =>
      cases hj
      refine ⟨?_, t! "P0", rfl, rfl⟩
      rw [List.append_assoc, List.append_assoc]
      exact key (t! "P0") _ (by decide) (by decide) fun _ => rfl
    | P1 =>
      cases hj
      refine ⟨?_, t! "P1", rfl, rfl⟩
      rw [List.append_assoc, List.append_assoc]
      exact key (t! "P1") _ (by decide) (by decide) fun _ => rfl
    | _ => exact absurd trivial h
  | dense g =>
    cases hj
    refine ⟨?_, t! "DenseMatrix", rfl, rfl⟩
    rw [List.append_assoc, List.append_assoc]
    exact key _ _ (by decide) (by decide) fun _ => rfl
  | sparse g =>
    obtain ⟨m, hm, h⟩ := bind_ok (show (do
      let m ← g.mat.toExternal
      pure (Json.obj (typeField (t! "SparseMatrix") ++ targetField g.o ++ controlFields g.o ++ [(t! "matrix", sparseToJson m.sparseView)]))) = .ok j from hj)
    cases h
    refine ⟨?_, t! "SparseMatrix", rfl, rfl⟩
    rw [List.append_assoc, List.append_assoc]
    exact key _ _ (by decide) (by decide) fun _ => rfl
  | _ => exact absurd trivial h

theorem mapM_throws {α β : Type} {f : α → Res β} {l : List α} (h : ∀ x ∈ l, (∃ y, f x = .ok y) ∨ ∃ m, f x = .error (.throw m))
    (he : ∃ x ∈ l, ∃ m, f x = .error (.throw m)) : ∃ m, l.mapM f = .error (.throw m) := by
  induction l with
  | nil => obtain ⟨x, hx, -⟩ := he; simp at hx
  | cons x l ih =>
    rw [List.mapM_cons]
    rcases h x (List.mem_cons_self ..) with ⟨y, hy⟩ | ⟨m, hm⟩
    · rw [hy, ok_bind]
      obtain ⟨z, hz, m, hm⟩ := he
      rcases List.mem_cons.1 hz with rfl | hz
      · rw [hy] at hm
        cases hm
      · obtain ⟨m, hm⟩ := ih (fun w hw => h w (List.mem_cons_of_mem _ hw)) ⟨z, hz, m, hm⟩
        exact ⟨m, by rw [hm]; rfl⟩
    · exact ⟨m, by rw [hm]; rfl⟩

end Verif.Proofs
