import Verif.Model.Tagged
import Verif.Proofs.Gate2

/-! # Tagged gates and the models without tags -/

namespace Verif.Proofs
open Verif Verif.Spec Verif.Model

/-! ## the field -/

theorem gateClass_type_ne (c : GateClass) : c.type ≠ .Unknown := by cases c <;> simp [GateClass.type]

theorem paramGateClass_type_ne (c : ParamGateClass) : c.type ≠ .Unknown := by cases c <;> simp [ParamGateClass.type]

@[simp] theorem make_tag (g : Gate) : (TGate.make g).tag = g.cls.type := rfl
@[simp] theorem make_obj (g : Gate) : (TGate.make g).obj = g := rfl
@[simp] theorem pmake_tag (g : PGate) : (TPGate.make g).tag = g.cls.type := rfl
@[simp] theorem pmake_obj (g : PGate) : (TPGate.make g).obj = g := rfl

theorem cls_meas (g : Gate) : g.cls.type = .Measurement ↔ ∃ m, g = .meas m := by
  constructor
  · intro h
    rcases g with u | t | m
    · rcases u with _ | ⟨_, _⟩ | ⟨k, o⟩ | _ | _ | _ | _ | _ | _ | ⟨_, _⟩ <;> first | cases h | (cases k <;> cases h)
    · cases h
    · exact ⟨m, rfl⟩
  · rintro ⟨m, rfl⟩; rfl

theorem cls_prob (g : Gate) : g.cls.type = .Probabilistic ↔ ∃ t, g = .prob t := by
  constructor
  · intro h
    rcases g with u | t | m
    · rcases u with _ | ⟨_, _⟩ | ⟨k, o⟩ | _ | _ | _ | _ | _ | _ | ⟨_, _⟩ <;> first | cases h | (cases k <;> cases h)
    · exact ⟨t, rfl⟩
    · cases h
  · rintro ⟨m, rfl⟩; rfl

theorem cls_pprob (g : PGate) : g.cls.type = .ParamProbabilistic ↔ ∃ t, g = .prob t := by
  constructor
  · intro h
    rcases g with r | t
    · rcases r with ⟨a, o, p⟩ | ⟨q, p⟩
      · cases a <;> cases h
      · cases h
    · exact ⟨t, rfl⟩
  · rintro ⟨m, rfl⟩; rfl

theorem cls_ppauli (g : PGate) : g.cls.type = .ParamPauliRotation ↔ ∃ q p, g = .rot (.pauli q p) := by
  constructor
  · intro h
    rcases g with r | t
    · rcases r with ⟨a, o, p⟩ | ⟨q, p⟩
      · cases a <;> cases h
      · exact ⟨q, p, rfl⟩
    · cases h
  · rintro ⟨q, p, rfl⟩; rfl

/-- the field of a gate names its class, or it is `Unknown` and the gate is no measurement -/
def GoodTag (g : TGate) : Prop := g.tag = g.obj.cls.type ∨ (g.tag = .Unknown ∧ ∀ m, g.obj ≠ .meas m)

/-- the same for parametric gates -/
def GoodPTag (g : TPGate) : Prop := g.tag = g.obj.cls.type ∨ g.tag = .Unknown

/-- every entry is like that -/
def GoodItem : TItem → Prop
  | .inl g => GoodTag g
  | .inr (p, _) => GoodPTag p

/-- every entry of the circuit is like that -/
def GoodCircuit (C : TCircuit) : Prop := ∀ g ∈ C.gates, GoodItem g

theorem goodItem_make (g : Item) : GoodItem (TItem.make g) := by
  rcases g with g | ⟨p, k⟩
  · exact .inl rfl
  · exact .inl rfl

theorem plain_make (g : Item) : TItem.plain (TItem.make g) = g := by
  rcases g with g | ⟨p, k⟩ <;> rfl

theorem circuit_plain_make (C : Circuit) : TCircuit.plain (TCircuit.make C) = C := by
  unfold TCircuit.plain TCircuit.make
  rw [List.map_map, show TItem.plain ∘ TItem.make = id from funext plain_make, List.map_id]

theorem goodCircuit_make (C : Circuit) : GoodCircuit (TCircuit.make C) := by
  intro g hg
  obtain ⟨i, -, rfl⟩ := List.mem_map.1 hg
  exact goodItem_make i

/-- an entry whose field is `Unknown` -/
def UnknownItem : TItem → Prop
  | .inl g => g.tag = .Unknown
  | .inr (p, _) => p.tag = .Unknown

theorem item_inverse {g g' : TItem} (h : g.inverse = .ok g') :
    Item.inverse g.plain = .ok g'.plain ∧ UnknownItem g' ∧ GoodItem g' := by
  rcases g with g | ⟨p, k⟩
  · obtain ⟨u, hu, h⟩ := bind_ok (show (do let g' ← g.inverse; pure (.inl g' : TItem)) = .ok g' from h)
    obtain ⟨o, ho, hu⟩ := bind_ok (show (do let o ← g.obj.inverse; pure (⟨o, .Unknown⟩ : TGate)) = .ok u from hu)
    cases hu; cases h
    refine ⟨?_, rfl, .inr ⟨rfl, ?_⟩⟩
    · show (do let g' ← g.obj.inverse; pure (.inl g' : Item)) = _
      rw [ho]; rfl
    · rintro m hm
      dsimp only at hm
      subst hm
      rcases hg : g.obj with u | t | m'
      · rw [hg] at ho
        obtain ⟨_, -, ho⟩ := bind_ok (show (do let g' ← u.inverse; pure (.det g' : Gate)) = _ from ho)
        cases ho
      · rw [hg] at ho
        obtain ⟨_, -, ho⟩ := bind_ok (show (do let g' ← t.inverse; pure (.prob g' : Gate)) = _ from ho)
        cases ho
      · rw [hg] at ho; cases ho
  · obtain ⟨u, hu, h⟩ := bind_ok (show (do let p' ← p.inverse; pure (.inr (p', k) : TItem)) = .ok g' from h)
    obtain ⟨o, ho, hu⟩ := bind_ok (show (do let o ← p.obj.inverse; pure (⟨o, .Unknown⟩ : TPGate)) = .ok u from hu)
    cases hu; cases h
    refine ⟨?_, rfl, .inr rfl⟩
    show (do let p' ← p.obj.inverse; pure (.inr (p', k) : Item)) = _
    rw [ho]; rfl

theorem item_inverse_error {g : TItem} {e : Fault} (h : g.inverse = .error e) : Item.inverse g.plain = .error e := by
  rcases g with g | ⟨p, k⟩
  · show (do let g' ← g.obj.inverse; pure (.inl g' : Item)) = _
    have h' : (do let g' ← (do let o ← g.obj.inverse; pure (⟨o, .Unknown⟩ : TGate)); pure (.inl g' : TItem)) = .error e := h
    cases ho : g.obj.inverse with
    | error e' => rw [ho] at h'; cases h'; rfl
    | ok o => rw [ho] at h'; cases h'
  · show (do let p' ← p.obj.inverse; pure (.inr (p', k) : Item)) = _
    have h' : (do let g' ← (do let o ← p.obj.inverse; pure (⟨o, .Unknown⟩ : TPGate)); pure (.inr (g', k) : TItem)) = .error e := h
    cases ho : p.obj.inverse with
    | error e' => rw [ho] at h'; cases h'; rfl
    | ok o => rw [ho] at h'; cases h'

/-- the inverse of the circuit without fields -/
theorem inverse_fold (C : TCircuit) : ∀ (l : List Nat) (D : TCircuit),
    (∀ D', l.foldlM C.inverseStep D = .ok D' → l.foldlM C.plain.inverseStep D.plain = .ok D'.plain ∧
      ((∀ g ∈ D.gates, UnknownItem g ∧ GoodItem g) → ∀ g ∈ D'.gates, UnknownItem g ∧ GoodItem g)) ∧
    (∀ e, l.foldlM C.inverseStep D = .error e → l.foldlM C.plain.inverseStep D.plain = .error e)
  | [], D => ⟨fun D' h => by cases h; exact ⟨rfl, fun h => h⟩, fun e h => by cases h⟩
  | i :: l, D => by
    have key : (∀ D1, C.inverseStep D i = .ok D1 → C.plain.inverseStep D.plain i = .ok D1.plain ∧
        ((∀ g ∈ D.gates, UnknownItem g ∧ GoodItem g) → ∀ g ∈ D1.gates, UnknownItem g ∧ GoodItem g)) ∧
        (∀ e, C.inverseStep D i = .error e → C.plain.inverseStep D.plain i = .error e) := by
      unfold TCircuit.inverseStep Circuit.inverseStep
      rw [show C.plain.gates = C.gates.map TItem.plain from rfl, List.length_map, List.getElem?_map]
      cases hg : C.gates[C.gates.length - 1 - i]? with
      | none => exact ⟨(fun D1 h => by cases h), fun e h => by cases h; rfl⟩
      | some g =>
        rw [Option.map_some]
        dsimp only
        cases hi : TItem.inverse g with
        | error e' =>
          rw [item_inverse_error hi]
          exact ⟨(fun D1 h => by cases h), fun e h => by cases h; rfl⟩
        | ok g' =>
          obtain ⟨h1, h2, h3⟩ := item_inverse hi
          rw [h1, ok_bind, ok_bind, show C.plain.conds = C.conds from rfl]
          cases hc : C.conds[sub64 (sub64 C.conds.length 1) i]? with
          | none => exact ⟨(fun D1 h => by cases h), fun e h => by cases h; rfl⟩
          | some c =>
            refine ⟨fun D1 h => ?_, fun e h => by cases h⟩
            cases h
            refine ⟨?_, fun hD g hg => ?_⟩
            · show (.ok ⟨_, _⟩ : Res Circuit) = .ok ⟨_, _⟩
              rw [List.map_append]; rfl
            · rcases List.mem_append.1 hg with hg | hg
              · exact hD g hg
              · rw [List.mem_singleton] at hg; subst hg; exact ⟨h2, h3⟩
    rw [List.foldlM_cons, List.foldlM_cons]
    constructor
    · intro D' h
      obtain ⟨D1, h1, h⟩ := bind_ok h
      obtain ⟨k1, k2⟩ := key.1 D1 h1
      obtain ⟨m1, m2⟩ := (inverse_fold C l D1).1 D' h
      rw [k1, ok_bind]
      exact ⟨m1, fun hD => m2 (k2 hD)⟩
    · intro e h
      cases h1 : C.inverseStep D i with
      | error e' => rw [h1] at h; rw [key.2 e' h1]; cases h; rfl
      | ok D1 =>
        rw [h1] at h
        rw [(key.1 D1 h1).1]
        exact (inverse_fold C l D1).2 e h

theorem circuit_inverse {C D : TCircuit} (h : C.inverse = .ok D) :
    C.plain.inverse = .ok D.plain ∧ (∀ g ∈ D.gates, UnknownItem g) ∧ GoodCircuit D := by
  obtain ⟨h1, h2⟩ := (inverse_fold C _ _).1 D h
  have h2 := h2 (fun g hg => by cases hg)
  refine ⟨?_, fun g hg => (h2 g hg).1, fun g hg => (h2 g hg).2⟩
  unfold Circuit.inverse
  rw [show C.plain.gates.length = C.gates.length from List.length_map _]
  exact h1

theorem circuit_inverse_iff {C : TCircuit} {D0 : Circuit} (h : C.plain.inverse = .ok D0) : ∃ D, C.inverse = .ok D ∧ D.plain = D0 := by
  cases hi : C.inverse with
  | ok D =>
    have := (circuit_inverse hi).1
    rw [h] at this
    cases this
    exact ⟨D, rfl, rfl⟩
  | error e =>
    have := (inverse_fold C _ ⟨[], []⟩).2 e hi
    have h' : (List.range C.plain.gates.length).foldlM C.plain.inverseStep ⟨[], []⟩ = .ok D0 := h
    rw [show C.plain.gates.length = C.gates.length from List.length_map _] at h'
    have h'' : (List.range C.gates.length).foldlM C.plain.inverseStep ⟨[], []⟩ = .error e := this
    rw [h'] at h''
    cases h''

/-! ## running -/

theorem unresetMask_good {g : TGate} (h : GoodTag g) : g.unresetMask = .ok g.obj.unresetMask := by
  obtain ⟨o, t⟩ := g
  unfold TGate.unresetMask
  rcases h with h | ⟨h, hm⟩
  · dsimp only at h ⊢
    subst h
    by_cases hc : o.cls.type = .Measurement
    · obtain ⟨m, rfl⟩ := (cls_meas o).1 hc
      rw [if_pos hc]; rfl
    · rw [if_neg hc]
      rcases o with u | t | m
      · rfl
      · rfl
      · exact absurd rfl hc
  · dsimp only at h hm ⊢
    subst h
    rw [if_neg (by simp)]
    rcases o with u | t | m
    · rfl
    · rfl
    · exact absurd rfl (hm m)

theorem item_runsOn {g : TItem} (h : GoodItem g) (L n : Nat) (rnd : Nat → ℝ) (params : String → Option ℝ) (s s' : Context × U64)
    (f : Option Fault) : TItem.RunsOn L n rnd params g s s' f ↔ Item.RunsOn L n rnd params g.plain s s' f := by
  unfold TItem.RunsOn Item.RunsOn
  split
  · exact Iff.rfl
  · rcases g with g | ⟨p, k⟩
    · show (∃ f1, _) ↔ _ ∧ _
      rw [unresetMask_good h]
      constructor
      · rintro ⟨f1, h1, h2⟩
        cases f1 with
        | some e => obtain ⟨h2, rfl⟩ := h2; exact ⟨h1, by rw [if_neg (by simp)]; exact h2⟩
        | none => obtain ⟨h2, rfl⟩ := h2; exact ⟨h1, by rw [if_pos rfl]; exact h2⟩
      · rintro ⟨h1, h2⟩
        refine ⟨f, h1, ?_⟩
        cases f with
        | some e => exact ⟨by rw [if_neg (by simp)] at h2; exact h2, rfl⟩
        | none => exact ⟨by rw [if_pos rfl] at h2; exact h2, rfl⟩
    · exact Iff.rfl

theorem item_runsBatched {g : TItem} (h : GoodItem g) (L B n : Nat) (rnd : Nat → ℝ) (params : String → Option (List ℝ)) (s s' : BContext × U64)
    (f : Option Fault) : TItem.RunsBatched L B n rnd params g s s' f ↔ Item.RunsBatched L B n rnd params g.plain s s' f := by
  unfold TItem.RunsBatched Item.RunsBatched
  split
  · exact Iff.rfl
  · rcases g with g | ⟨p, k⟩
    · show (∃ f1, _) ↔ _ ∧ _
      rw [unresetMask_good h]
      constructor
      · rintro ⟨f1, h1, h2⟩
        cases f1 with
        | some e => obtain ⟨h2, rfl⟩ := h2; exact ⟨h1, by rw [if_neg (by simp)]; exact h2⟩
        | none => obtain ⟨h2, rfl⟩ := h2; exact ⟨h1, by rw [if_pos rfl]; exact h2⟩
      · rintro ⟨h1, h2⟩
        refine ⟨f, h1, ?_⟩
        cases f with
        | some e => exact ⟨by rw [if_neg (by simp)] at h2; exact h2, rfl⟩
        | none => exact ⟨by rw [if_pos rfl] at h2; exact h2, rfl⟩
    · exact Iff.rfl

theorem plain_getElem? (C : TCircuit) (i : Nat) : C.plain.gates[i]? = C.gates[i]?.map TItem.plain := List.getElem?_map ..

theorem plain_length (C : TCircuit) : C.plain.gates.length = C.gates.length := List.length_map _

theorem circuit_stepOn {C : TCircuit} (h : GoodCircuit C) (L n : Nat) (rnd : Nat → ℝ) (params : String → Option ℝ) :
    C.StepOn L n rnd params = C.plain.StepOn L n rnd params := by
  funext idx s s' f
  unfold TCircuit.StepOn Circuit.StepOn
  rw [plain_getElem?, show C.plain.conds = C.conds from rfl]
  cases hc : C.conds[idx]? with
  | none => rfl
  | some c =>
    cases hg : C.gates[idx]? with
    | none => rfl
    | some g =>
      rw [Option.map_some]
      dsimp only
      cases evalCond c s.1.reg with
      | error e => rfl
      | ok b =>
        cases b
        · rfl
        · exact propext (item_runsOn (h g (List.mem_of_getElem? hg)) ..)

theorem circuit_runsOn {C : TCircuit} (h : GoodCircuit C) (L n : Nat) (rnd : Nat → ℝ) (params : String → Option ℝ) (ψ : U64 → ℂ)
    (reg : List Bool) (c' : Context) (f : Option Fault) :
    C.RunsOn L n rnd params ψ reg c' f ↔ C.plain.RunsOn L n rnd params ψ reg c' f := by
  unfold TCircuit.RunsOn Circuit.RunsOn
  rw [circuit_stepOn h, plain_length]
  exact Iff.rfl

theorem circuit_hasClassical {C : TCircuit} (h : GoodCircuit C) : C.hasClassical = C.plain.hasClassical := by
  unfold TCircuit.hasClassical Circuit.hasClassical
  rw [show C.plain.conds = C.conds from rfl, show C.plain.gates = C.gates.map TItem.plain from rfl, List.any_map]
  congr 1
  apply Bool.eq_iff_iff.2
  rw [List.any_eq_true, List.any_eq_true]
  refine exists_congr fun g => and_congr_right fun hg => ?_
  have := h g hg
  rcases g with ⟨o, t⟩ | ⟨p, k⟩
  · rw [decide_eq_true_iff]
    dsimp only [Function.comp_apply, TItem.plain]
    constructor
    · rintro rfl
      rcases this with this | ⟨this, -⟩
      · obtain ⟨m, rfl⟩ := (cls_meas o).1 this.symm
        rfl
      · cases this
    · intro hm
      rcases o with u | t' | m
      · cases hm
      · cases hm
      · rcases this with this | ⟨-, this⟩
        · exact this
        · exact absurd rfl (this m)
  · simp [TItem.plain]

theorem circuit_runsPlain {C : TCircuit} (h : GoodCircuit C) (L n : Nat) (rnd : Nat → ℝ) (params : String → Option ℝ) (ψ ψ' : U64 → ℂ)
    (f : Option Fault) : C.RunsPlain L n rnd params ψ ψ' f ↔ C.plain.RunsPlain L n rnd params ψ ψ' f := by
  unfold TCircuit.RunsPlain Circuit.RunsPlain
  rw [circuit_hasClassical h]
  split
  · exact Iff.rfl
  · exact exists_congr fun c' => and_congr (circuit_runsOn h ..) Iff.rfl

theorem circuit_runsBatched {C : TCircuit} (h : GoodCircuit C) (L B n : Nat) (rnd : Nat → ℝ) (params : String → Option (List ℝ)) (Ψ : U64 → ℂ)
    (reg : BReg) (c' : BContext) (f : Option Fault) :
    C.RunsBatched L B n rnd params Ψ reg c' f ↔ C.plain.RunsBatched L B n rnd params Ψ reg c' f := by
  unfold TCircuit.RunsBatched Circuit.RunsBatched
  rw [plain_length]
  have : C.StepBatched L B n rnd params = C.plain.StepBatched L B n rnd params := by
    funext idx s s' f
    unfold TCircuit.StepBatched Circuit.StepBatched
    rw [plain_getElem?, show C.plain.conds = C.conds from rfl]
    cases hc : C.conds[idx]? with
    | none => rfl
    | some c =>
      cases hg : C.gates[idx]? with
      | none => cases c <;> rfl
      | some g =>
        rw [Option.map_some]
        cases c with
        | some c => rfl
        | none => exact propext (item_runsBatched (h g (List.mem_of_getElem? hg)) ..)
  rw [this]
  exact Iff.rfl

/-! ## gradient -/

/-- the parametric gates of the entry get the scale of their class: the field names the class, or the gate is no Pauli rotation or one with
coefficient 1 -/
def PlainScale : TItem → Prop
  | .inl _ => True
  | .inr (p, _) => p.tag = p.obj.cls.type ∨ (p.tag = .Unknown ∧ ∀ q c, p.obj = .rot (.pauli q c) → q.p.coef = 1)

theorem scale_eq {p : TPGate} {k : String} (h : PlainScale (.inr (p, k))) {eps : ℝ} (he : 0 < eps) : p.scale eps = p.obj.scale eps := by
  obtain ⟨o, t⟩ := p
  unfold TPGate.scale
  rcases h with h | ⟨h, hq⟩
  · dsimp only at h ⊢
    subst h
    by_cases hc : o.cls.type = .ParamPauliRotation
    · obtain ⟨q, c, rfl⟩ := (cls_ppauli o).1 hc
      rw [if_pos hc]
    · rw [if_neg hc]
      rcases o with (⟨a, o, c⟩ | ⟨q, c⟩) | t
      · rfl
      · exact absurd rfl hc
      · rfl
  · dsimp only at h hq ⊢
    subst h
    rw [if_neg (by simp)]
    rcases o with (⟨a, o, c⟩ | ⟨q, c⟩) | t
    · rfl
    · have h1 := hq q c rfl
      show checkScale (c * 1) = _
      have e1 : ¬ |q.p.coef.im| ≥ eps := by rw [h1]; simpa using he
      have e2 : ¬ |q.p.coef.re| < dblEpsilon := by rw [h1, Complex.one_re, abs_one, dblEpsilon]; norm_num
      unfold PGate.scale
      dsimp only
      rw [if_neg e1, if_neg e2, h1, Complex.one_re]
    · rfl

theorem circuit_gradient {C : TCircuit} (h : GoodCircuit C) (hs : ∀ g ∈ C.gates, PlainScale g) (L : Nat) {eps : ℝ} (he : 0 < eps) (rnd : Nat → ℝ)
    (params : String → Option ℝ) (obs : Op) (junk : U64 → ℂ) (r : Res (String → Option ℝ)) :
    C.Gradient L eps rnd params obs junk r ↔ C.plain.Gradient L eps rnd params obs junk r := by
  have hstep : ∀ n, C.GradAt L n eps params = C.plain.GradAt L n eps params := by
    intro n
    funext i s s' f
    unfold TCircuit.GradAt Circuit.GradAt
    rw [plain_getElem?]
    cases hg : C.gates[i]? with
    | none => rfl
    | some g =>
      rw [Option.map_some]
      dsimp only
      unfold TItem.GradStep Item.GradStep
      have : TItem.Contributes L n eps g = Item.Contributes L n eps g.plain := by
        funext s s' f
        rcases g with g | ⟨p, k⟩
        · rfl
        · unfold TItem.Contributes Item.Contributes
          dsimp only [TItem.plain]
          rw [scale_eq (k := k) (hs _ (List.mem_of_getElem? hg)) he]
          rfl
      rw [this]
      rfl
  have hb : ∀ n ψ b s' f, C.Backprops L n eps params ψ b s' f ↔ C.plain.Backprops L n eps params ψ b s' f := by
    intro n ψ b s' f
    unfold TCircuit.Backprops Circuit.Backprops
    rw [hstep, plain_length]
  unfold TCircuit.Gradient Circuit.Gradient
  split
  · exact Iff.rfl
  · dsimp only
    cases shl1 C.plain.requiredQubits with
    | error e => exact Iff.rfl
    | ok _ =>
      dsimp only
      refine exists_congr fun ψ0 => exists_congr fun ψ => exists_congr fun f1 => and_congr_right fun _ =>
        and_congr (circuit_runsPlain h ..) ?_
      cases f1 with
      | some e => exact Iff.rfl
      | none => exact exists_congr fun b => and_congr_right fun _ => exists_congr fun s' => exists_congr fun f =>
          and_congr (hb ..) Iff.rfl

/-! ## export -/

theorem classify_make (g : Item) : (TItem.make g).classify = classifyItem g := by
  rcases g with g | ⟨p, k⟩
  · show (TGate.make g).classify = classifyGate g
    unfold TGate.classify
    rw [make_obj, make_tag]
    have := gateClass_type_ne g.cls
    rcases g with u | t | m
    · split
      · next h => cases h
      · next h _ => exact absurd h this
      · rfl
    · rfl
    · split
      · next h => cases h
      · next h _ => exact absurd h this
      · rfl
  · rfl

theorem dumps_make (lib : Libc) (C : Circuit) (n : Option Nat) : (TCircuit.make C).dumps lib n = dumps lib C n := by
  unfold TCircuit.dumps dumps
  have : (TCircuit.make C).gates.foldlM (tdumpStep lib) (0, 0, []) = C.gates.foldlM (dumpStep lib) (0, 0, []) := by
    unfold TCircuit.make
    rw [List.foldlM_map]
    congr 1
    funext s g
    unfold tdumpStep dumpStep
    rw [classify_make]
    rfl
  rw [this]

theorem classify_unknown {g : TItem} (h : UnknownItem g) (lib : Libc) (s : Nat × Nat × Text) : ∃ m, tdumpStep lib s g = .error (.throw m) := by
  rcases g with ⟨o, t⟩ | ⟨p, k⟩
  · obtain rfl : t = .Unknown := h
    rcases o with u | t | m
    · exact ⟨_, rfl⟩
    · exact ⟨_, rfl⟩
    · exact ⟨_, rfl⟩
  · exact ⟨_, rfl⟩

end Verif.Proofs
