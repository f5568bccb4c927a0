import Verif.Proofs.QasmRead
import Verif.Proofs.CircuitRun

/-! # OpenQASM: what `dumps` writes for a gate describes this gate -/

namespace Verif.Proofs
open Verif Verif.Spec Verif.Model
attribute [-simp] BitVec.getLsbD_eq_getElem

/-! ## controls with value one -/

theorem mkOperands_ones {ts cs vs : List Nat} (hl : vs.length = cs.length) (h1 : vs.all (· == 1) = true) :
    mkOperands ts cs [] = mkOperands ts cs vs := by
  have e : vs = List.replicate cs.length 1 := by
    rw [← hl]
    exact List.eq_replicate_of_mem fun v hv => by simpa using List.all_eq_true.1 h1 v hv
  unfold mkOperands
  have r : resizeAndCheckControlValues cs [] = resizeAndCheckControlValues cs vs := by
    rw [e]
    unfold resizeAndCheckControlValues
    cases cs with
    | nil => rfl
    | cons c cs => simp
  rw [r]

/-- operands whose control values are all one -/
theorem mkOperands_noValues {o : Operands} (ho : OperandsOK o) (h1 : (maskToVector2 o.c o.v).all (· == 1) = true) :
    mkOperands (maskToVector o.t) (maskToVector o.c) [] = .ok o := by
  rw [mkOperands_ones (vs := maskToVector2 o.c o.v) (by simp [maskToVector2]) h1]
  exact mkOperands_self ho

theorem operand_lists {o : Operands} (ho : OperandsOK o) :
    (maskToVector o.c ++ maskToVector o.t).Nodup ∧
      ∀ q, q ∈ maskToVector o.c ++ maskToVector o.t ↔ (o.t ||| o.c).getLsbD q = true := by
  constructor
  · rw [List.nodup_append]
    refine ⟨maskToVector_nodup _, maskToVector_nodup _, ?_⟩
    rintro a ha b hb rfl
    rw [mem_maskToVector] at ha hb
    have := congrArg (fun m => BitVec.getLsbD m a) ho.disj
    simp [BitVec.getLsbD_and, ha, hb] at this
  · intro q
    rw [List.mem_append, mem_maskToVector, mem_maskToVector, BitVec.getLsbD_or, Bool.or_eq_true, or_comm]

theorem mask_bit_lt {m : U64} {q : Nat} (h : m.getLsbD q = true) : q < 64 := by
  by_contra hq
  rw [BitVec.getLsbD_of_ge _ _ (by omega)] at h
  cases h

/-! ## angles -/

/-- the angles of a gate -/
def anglesOf1 : Gate1 → List ℝ
  | .RX θ | .RY θ | .RZ θ | .U1 θ => [θ]
  | .U2 a b => [a, b]
  | .U3 a b c => [a, b, c]
  | _ => []

/-- the angles of a gate object -/
def anglesOf : UGate → List ℝ
  | .one k _ => anglesOf1 k
  | _ => []

/-! ## exported gates -/

/-- what is written for an entry, `none` if nothing is -/
noncomputable def lowered (lib : Libc) (g : Item) : Res (Option Qasm2Op) := do
  let view ← classifyItem g
  lowerView lib view

/-- an exported gate can be rebuilt from its name, angles and operands -/
def Describes (lib : Libc) (op : Qasm2Op) (g : UGate) : Prop :=
  ∃ name θs qs d, op = .gate name (θs.map lib.format) qs ∧ name ∈ exportNames ∧ θs = anglesOf g ∧ qs ≠ [] ∧ qs.Nodup ∧
    (∀ q, q ∈ qs ↔ (g.operands.t ||| g.operands.c).getLsbD q = true) ∧ gateNamed name θs qs = .ok (some d) ∧ d.build = .ok g

/-- the work common to all one-qubit gates -/
theorem describes_one {lib : Libc} {k : Gate1} {o : Operands} (ho : OperandsOK o) {q : Nat} (hq : maskToVector o.t = [q])
    (h1 : (maskToVector2 o.c o.v).all (· == 1) = true) {cs : List Nat} (hc : maskToVector o.c = cs) {name : Text} (hn : name ∈ exportNames)
    (hg : gateNamed name (anglesOf1 k) (cs ++ [q]) = .ok (some (.one k q cs []))) :
    Describes lib (.gate name ((anglesOf1 k).map lib.format) (cs ++ [q])) (.one k o) := by
  have hl := operand_lists ho
  have hm := mkOperands_noValues ho h1
  rw [hq, hc] at hl hm
  refine ⟨name, anglesOf1 k, cs ++ [q], _, rfl, hn, rfl, by simp, hl.1, hl.2, hg, ?_⟩
  show (do let o ← mkOperands [q] cs []; pure (UGate.one k o)) = _
  rw [hm]
  rfl

theorem singleTarget_one (q : Nat) : singleTarget [q] = .ok q := rfl

theorem lowered_named {lib : Libc} {k : Gate1} {o : Operands} (ho : OperandsOK o) {q : Nat} (hq : maskToVector o.t = [q]) {name : Text}
    {op : Qasm2Op} (h : lowerNamed name [q] (maskToVector o.c) (maskToVector2 o.c o.v) = .ok op) (hk : anglesOf1 k = [])
    (hn : (name, k) ∈ [(t! "x", Gate1.X), (t! "y", .Y), (t! "z", .Z), (t! "h", .H), (t! "s", .S), (t! "sdg", .Sdag), (t! "t", .T),
      (t! "tdg", .Tdag)]) : Describes lib op (.one k o) := by
  unfold lowerNamed at h
  split at h
  · cases h
  rename_i h1
  rw [not_not] at h1
  have key : ∀ {cs : List Nat}, maskToVector o.c = cs → ∀ {name : Text}, name ∈ exportNames →
      gateNamed name [] (cs ++ [q]) = .ok (some (.one k q cs [])) → Describes lib (.gate name [] (cs ++ [q])) (.one k o) := by
    intro cs hc name hn hg
    have := describes_one (lib := lib) (k := k) ho hq h1 hc hn (by rw [hk]; exact hg)
    rw [hk] at this
    exact this
  split at h
  · rename_i hc
    cases h
    refine key (cs := []) hc (name := name) ?_ ?_
    · simp only [List.mem_cons, Prod.mk.injEq, List.not_mem_nil, or_false] at hn
      rcases hn with ⟨rfl, -⟩ | ⟨rfl, -⟩ | ⟨rfl, -⟩ | ⟨rfl, -⟩ | ⟨rfl, -⟩ | ⟨rfl, -⟩ | ⟨rfl, -⟩ | ⟨rfl, -⟩ <;> decide
    · simp only [List.mem_cons, Prod.mk.injEq, List.not_mem_nil, or_false] at hn
      rcases hn with ⟨rfl, rfl⟩ | ⟨rfl, rfl⟩ | ⟨rfl, rfl⟩ | ⟨rfl, rfl⟩ | ⟨rfl, rfl⟩ | ⟨rfl, rfl⟩ | ⟨rfl, rfl⟩ | ⟨rfl, rfl⟩ <;> simp [gateNamed]
  · rename_i a hc
    simp only [List.mem_cons, Prod.mk.injEq, List.not_mem_nil, or_false] at hn
    rcases hn with ⟨rfl, rfl⟩ | ⟨rfl, rfl⟩ | ⟨rfl, rfl⟩ | ⟨rfl, rfl⟩ | ⟨rfl, rfl⟩ | ⟨rfl, rfl⟩ | ⟨rfl, rfl⟩ | ⟨rfl, rfl⟩ <;>
      simp [singleTarget_one, bind, Except.bind, pure, Except.pure] at h
    all_goals
      subst h
      refine key (cs := [a]) hc (by decide) (by simp [gateNamed])
  · rename_i a b hc
    simp only [List.mem_cons, Prod.mk.injEq, List.not_mem_nil, or_false] at hn
    rcases hn with ⟨rfl, rfl⟩ | ⟨rfl, rfl⟩ | ⟨rfl, rfl⟩ | ⟨rfl, rfl⟩ | ⟨rfl, rfl⟩ | ⟨rfl, rfl⟩ | ⟨rfl, rfl⟩ | ⟨rfl, rfl⟩ <;>
      simp [singleTarget_one, bind, Except.bind, pure, Except.pure] at h
    subst h
    exact key (cs := [a, b]) hc (by decide) (by simp [gateNamed])
  · cases h

theorem lowered_rotation {lib : Libc} {k : Gate1} {o : Operands} (ho : OperandsOK o) {q : Nat} (hq : maskToVector o.t = [q]) {name : Text}
    {θ : ℝ} {op : Qasm2Op} (h : lowerRotation lib name θ q (maskToVector o.c) (maskToVector2 o.c o.v) = .ok op)
    (hn : name = t! "rx" ∧ k = .RX θ ∨ name = t! "ry" ∧ k = .RY θ ∨ name = t! "rz" ∧ k = .RZ θ) : Describes lib op (.one k o) := by
  unfold lowerRotation at h
  split at h
  · cases h
  rename_i h1
  rw [not_not] at h1
  split at h
  · rename_i hc
    cases h
    rcases hn with ⟨rfl, rfl⟩ | ⟨rfl, rfl⟩ | ⟨rfl, rfl⟩
    · exact describes_one (lib := lib) (k := .RX θ) (name := t! "rx") (cs := []) ho hq h1 hc (by decide) (by simp [gateNamed, anglesOf1])
    · exact describes_one (lib := lib) (k := .RY θ) (name := t! "ry") (cs := []) ho hq h1 hc (by decide) (by simp [gateNamed, anglesOf1])
    · exact describes_one (lib := lib) (k := .RZ θ) (name := t! "rz") (cs := []) ho hq h1 hc (by decide) (by simp [gateNamed, anglesOf1])
  · rename_i a hc
    cases h
    rcases hn with ⟨rfl, rfl⟩ | ⟨rfl, rfl⟩ | ⟨rfl, rfl⟩
    · exact describes_one (lib := lib) (k := .RX θ) (name := t! "crx") (cs := [a]) ho hq h1 hc (by decide) (by simp [gateNamed, anglesOf1])
    · exact describes_one (lib := lib) (k := .RY θ) (name := t! "cry") (cs := [a]) ho hq h1 hc (by decide) (by simp [gateNamed, anglesOf1])
    · exact describes_one (lib := lib) (k := .RZ θ) (name := t! "crz") (cs := [a]) ho hq h1 hc (by decide) (by simp [gateNamed, anglesOf1])
  · cases h

theorem lowered_u {lib : Libc} {k : Gate1} {o : Operands} (ho : OperandsOK o) {q : Nat} (hq : maskToVector o.t = [q]) {name : Text}
    {op : Qasm2Op} (h : lowerU lib name (anglesOf1 k) q (maskToVector o.c) (maskToVector2 o.c o.v) = .ok op)
    (hn : (∃ a, name = t! "u1" ∧ k = .U1 a) ∨ (∃ a b, name = t! "u2" ∧ k = .U2 a b) ∨ ∃ a b c, name = t! "u3" ∧ k = .U3 a b c) :
    Describes lib op (.one k o) := by
  unfold lowerU at h
  split at h
  · cases h
  rename_i h1
  rw [not_not] at h1
  split at h
  · rename_i hc
    cases h
    rcases hn with ⟨x, rfl, rfl⟩ | ⟨x, y, rfl, rfl⟩ | ⟨x, y, z, rfl, rfl⟩
    · exact describes_one (lib := lib) (k := .U1 x) (name := t! "u1") (cs := []) ho hq h1 hc (by decide) (by simp [gateNamed, anglesOf1])
    · exact describes_one (lib := lib) (k := .U2 x y) (name := t! "u2") (cs := []) ho hq h1 hc (by decide) (by simp [gateNamed, anglesOf1])
    · exact describes_one (lib := lib) (k := .U3 x y z) (name := t! "u3") (cs := []) ho hq h1 hc (by decide) (by simp [gateNamed, anglesOf1])
  · rename_i a hc
    rcases hn with ⟨x, rfl, rfl⟩ | ⟨x, y, rfl, rfl⟩ | ⟨x, y, z, rfl, rfl⟩
    · rw [if_pos (by decide)] at h
      cases h
      exact describes_one (lib := lib) (k := .U1 x) (name := t! "cu1") (cs := [a]) ho hq h1 hc (by decide) (by simp [gateNamed, anglesOf1])
    · rw [if_neg (by decide)] at h
      cases h
    · rw [if_pos (by decide)] at h
      cases h
      exact describes_one (lib := lib) (k := .U3 x y z) (name := t! "cu3") (cs := [a]) ho hq h1 hc (by decide) (by simp [gateNamed, anglesOf1])
  · cases h

theorem lowered_swap {lib : Libc} {o : Operands} (ho : OperandsOK o) {a b : Nat} (hq : maskToVector o.t = [a, b])
    {op : Qasm2Op} (h : lowerNamed (t! "swap") [a, b] (maskToVector o.c) (maskToVector2 o.c o.v) = .ok op) : Describes lib op (.swap o) := by
  unfold lowerNamed at h
  split at h
  · cases h
  rename_i h1
  rw [not_not] at h1
  have hl := operand_lists ho
  have hm := mkOperands_noValues ho h1
  split at h
  · rename_i hc
    rw [hq, hc] at hl hm
    cases h
    refine ⟨t! "swap", [], [a, b], .swap a b [] [], rfl, by decide, rfl, by simp, hl.1, hl.2, by simp [gateNamed], ?_⟩
    show (do let o ← mkOperands [a, b] [] []; pure (UGate.swap o)) = _
    rw [hm]
    rfl
  · rename_i c hc
    rw [hq, hc] at hl hm
    simp at h
    subst h
    refine ⟨t! "cswap", [], [c, a, b], .swap a b [c] [], rfl, by decide, rfl, by simp, hl.1, hl.2, by simp [gateNamed], ?_⟩
    show (do let o ← mkOperands [a, b] [c] []; pure (UGate.swap o)) = _
    rw [hm]
    rfl
  · simp at h
  · cases h

theorem some_bind_ok {op : Qasm2Op} {x : Res Qasm2Op} (h : (do let op ← x; pure (some op)) = (.ok (some op) : Res (Option Qasm2Op))) : x = .ok op := by
  obtain ⟨y, hy, h⟩ := bind_ok h
  cases h
  exact hy

/-- **what is written for a gate describes this gate** -/
theorem lowered_describes {lib : Libc} {g : UGate} (hv : Valid g) {op : Qasm2Op} (h : lowered lib (.inl (.det g)) = .ok (some op)) :
    Describes lib op g := by
  unfold lowered classifyItem classifyGate at h
  dsimp only [UGate.targetQubitList, UGate.controlQubitList, UGate.controlValueList] at h
  cases g with
  | one k o =>
    obtain ⟨ho, q, hq⟩ := hv
    simp only [show (UGate.one k o).operands = o from rfl, hq, singleTarget_one] at h
    cases k <;> dsimp only at h <;> simp only [ok_bind, pure_bind] at h
    case X => exact lowered_named ho hq (some_bind_ok h) rfl (by simp)
    case Y => exact lowered_named ho hq (some_bind_ok h) rfl (by simp)
    case Z => exact lowered_named ho hq (some_bind_ok h) rfl (by simp)
    case H => exact lowered_named ho hq (some_bind_ok h) rfl (by simp)
    case S => exact lowered_named ho hq (some_bind_ok h) rfl (by simp)
    case Sdag => exact lowered_named ho hq (some_bind_ok h) rfl (by simp)
    case T => exact lowered_named ho hq (some_bind_ok h) rfl (by simp)
    case Tdag => exact lowered_named ho hq (some_bind_ok h) rfl (by simp)
    case RX => exact lowered_rotation ho hq (some_bind_ok h) (by simp)
    case RY => exact lowered_rotation ho hq (some_bind_ok h) (by simp)
    case RZ => exact lowered_rotation ho hq (some_bind_ok h) (by simp)
    case U1 a => exact lowered_u (k := .U1 a) ho hq (some_bind_ok h) (by simp)
    case U2 a b => exact lowered_u (k := .U2 a b) ho hq (some_bind_ok h) (by simp)
    case U3 a b c => exact lowered_u (k := .U3 a b c) ho hq (some_bind_ok h) (by simp)
    all_goals cases h
  | swap o =>
    obtain ⟨ho, a, b, hq⟩ := hv
    simp only [show (UGate.swap o).operands = o from rfl, hq, ok_bind] at h
    exact lowered_swap ho hq (some_bind_ok h)
  | ident => cases h
  | globalPhase => cases h
  | ecr => cases h
  | perm => cases h
  | dense => cases h
  | sparse => cases h
  | pauli => cases h
  | pauliRot => cases h

/-- only the identity gate is written as nothing -/
theorem lowered_none {lib : Libc} {g : Item} (h : lowered lib g = .ok none) : g = .inl (.det .ident) := by
  have key : ∀ {x : Res Qasm2Op}, (do let op ← x; pure (some op)) ≠ (.ok none : Res (Option Qasm2Op)) := by
    intro x h
    obtain ⟨y, -, h⟩ := bind_ok h
    cases h
  have key2 : ∀ {x : Res Nat} {f : Nat → OpView}, (∀ t, lowerView lib (f t) ≠ .ok none) →
      (do let t ← x; let v ← pure (f t); lowerView lib v) ≠ (.ok none : Res (Option Qasm2Op)) := by
    intro x f hf h
    obtain ⟨t, -, h⟩ := bind_ok h
    exact hf t h
  unfold lowered at h
  obtain ⟨v, hv, h⟩ := bind_ok h
  cases v with
  | ignored =>
    cases g with
    | inr p => cases hv
    | inl g =>
      cases g with
      | prob => cases hv
      | meas m =>
        obtain ⟨t, -, hv⟩ := bind_ok (show (do let t ← singleTarget (maskToVector m.o.t); pure (OpView.measurement t m.cbit m.reset)) = _ from hv)
        cases hv
      | det g =>
        cases g with
        | ident => rfl
        | one k o =>
          unfold classifyItem classifyGate at hv
          cases k <;> dsimp only at hv <;> first
            | cases hv
            | (obtain ⟨t, -, hv⟩ := bind_ok hv; cases hv)
        | _ => cases hv
  | named => exact absurd h key
  | rotation => exact absurd h key
  | ugate => exact absurd h key
  | measurement t b reset =>
    unfold lowerView at h
    cases reset <;> cases h
  | unsupported => cases h

/-- an exported measurement is exactly this measurement -/
theorem lowered_measure {lib : Libc} {q b : Nat} {reset : Bool} {g : MeasGate} (hg : mkMeas q b reset = .ok g) {op : Qasm2Op}
    (h : lowered lib (.inl (.meas g)) = .ok (some op)) : op = .measure q b ∧ mkMeas q b false = .ok g ∧ q < 64 := by
  have hg' := hg
  unfold mkMeas at hg
  obtain ⟨t, ht, hg⟩ := bind_ok hg
  obtain ⟨o, ho, hg⟩ := bind_ok hg
  cases hg
  have hm : mkOperands [q] [] [] = .ok o := by
    unfold mkOperands
    rw [show resizeAndCheckControlValues [] [] = .ok [] from rfl, ok_bind, ht, ok_bind]
    exact ho
  have hts : maskToVector o.t = [q] := (target_list hm).trans (by simp [sortQ])
  have hq : q < 64 := maskToVector_lt (m := o.t) (by rw [hts]; simp)
  unfold lowered classifyItem classifyGate at h
  dsimp only at h
  rw [hts, singleTarget_one, ok_bind] at h
  cases reset with
  | true => cases h
  | false =>
    cases h
    exact ⟨rfl, hg', hq⟩

/-! ## the loop of `dumps` -/

/-- the statements written for a list of entries -/
inductive Exported (lib : Libc) : List Item → List Qasm2Op → Prop
  | nil : Exported lib [] []
  | skip (g : Item) (gs : List Item) (ops : List Qasm2Op) : lowered lib g = .ok none → Exported lib gs ops → Exported lib (g :: gs) ops
  | cons (g : Item) (gs : List Item) (op : Qasm2Op) (ops : List Qasm2Op) : lowered lib g = .ok (some op) → Exported lib gs ops →
      Exported lib (g :: gs) (op :: ops)

theorem dumpStep_eq (lib : Libc) (s : Nat × Nat × Text) (g : Item) : dumpStep lib s g = (do
    match ← lowered lib g with
    | none => pure s
    | some op => pure (max s.1 op.required.1, max s.2.1 op.required.2, s.2.2 ++ writeOp op ++ t! "\n")) := by
  unfold dumpStep lowered
  rw [bind_assoc]
  rfl

theorem dump_loop {lib : Libc} {gs : List Item} {s s' : Nat × Nat × Text} (h : gs.foldlM (dumpStep lib) s = .ok s') :
    ∃ ops, Exported lib gs ops ∧ s'.2.2 = s.2.2 ++ (ops.map stmtOf).flatMap (fun t => t ++ t! ";\n") ∧
      s'.1 = ops.foldl (fun m op => max m op.required.1) s.1 ∧ s'.2.1 = ops.foldl (fun m op => max m op.required.2) s.2.1 := by
  induction gs generalizing s with
  | nil =>
    cases h
    exact ⟨[], .nil, by simp, rfl, rfl⟩
  | cons g gs ih =>
    rw [List.foldlM_cons] at h
    obtain ⟨s1, h1, h2⟩ := bind_ok h
    rw [dumpStep_eq] at h1
    obtain ⟨o, ho, h1⟩ := bind_ok h1
    obtain ⟨ops, e1, e2, e3, e4⟩ := ih h2
    cases o with
    | none =>
      cases h1
      exact ⟨ops, .skip _ _ _ ho e1, e2, e3, e4⟩
    | some op =>
      cases h1
      refine ⟨op :: ops, .cons _ _ _ _ ho e1, ?_, e3, e4⟩
      rw [e2, writeOp_eq]
      simp

theorem foldl_max_le {α : Type} (f : α → Nat) (l : List α) (m : Nat) : m ≤ l.foldl (fun m a => max m (f a)) m ∧
    (∀ a ∈ l, f a ≤ l.foldl (fun m a => max m (f a)) m) ∧
    (l.foldl (fun m a => max m (f a)) m = m ∨ ∃ a ∈ l, l.foldl (fun m a => max m (f a)) m = f a) := by
  induction l generalizing m with
  | nil => exact ⟨le_refl _, by simp, .inl rfl⟩
  | cons a l ih =>
    obtain ⟨h1, h2, h3⟩ := ih (max m (f a))
    rw [List.foldl_cons]
    refine ⟨le_trans (le_max_left _ _) h1, ?_, ?_⟩
    · intro b hb
      rcases List.mem_cons.1 hb with rfl | hb
      · exact le_trans (le_max_right _ _) h1
      · exact h2 b hb
    · rcases h3 with h3 | ⟨b, hb, h3⟩
      · rcases le_total m (f a) with h | h
        · right
          exact ⟨a, List.mem_cons_self, by rw [h3]; exact max_eq_right h⟩
        · left
          rw [h3]; exact max_eq_left h
      · exact .inr ⟨b, List.mem_cons_of_mem _ hb, h3⟩

/-! ## reading everything back -/

/-- an entry made by the factories -/
def FromFactory (g : Item) : Prop :=
  (∃ u, g = .inl (.det u) ∧ Valid u ∧ ∀ θ ∈ anglesOf u, IsDouble θ) ∨
  (∃ q b reset m, g = .inl (.meas m) ∧ mkMeas q b reset = .ok m ∧ b + 1 < 2 ^ 64) ∨ (∃ p, g = .inl (.prob p)) ∨ ∃ p, g = .inr p

/-- entries other than the identity gate -/
noncomputable def keep (g : Item) : Bool :=
  match g with
  | .inl (.det .ident) => false
  | _ => true

/-- the statements fit into the registers -/
def Fits (n m : Nat) (ops : List Qasm2Op) : Prop := ∀ op ∈ ops, op.required.1 ≤ n ∧ op.required.2 ≤ m

theorem requiredOf_lt {qs : List Nat} (h : ∀ q ∈ qs, q < 64) {n : Nat} (hn : requiredOf qs ≤ n) : ∀ q ∈ qs, q < n := by
  intro q hq
  have := (foldl_max_le (fun q => (q + 1) % 2 ^ 64) qs 0).2.1 q hq
  have hlt := h q hq
  rw [Nat.mod_eq_of_lt (by omega)] at this
  unfold requiredOf at hn
  omega

/-- what is written for one entry is a statement, and reading it adds the same entry -/
theorem read_entry {lib : Libc} (hs : StrtodOK lib.strtod) (hf : FormatOK lib.format) {g : Item} (hg : FromFactory g) {op : Qasm2Op}
    (h : lowered lib g = .ok (some op)) {n m : Nat} (hr : op.required.1 ≤ n ∧ op.required.2 ≤ m) (hn : n < 2 ^ 64) (hm : m < 2 ^ 64) :
    (Plain (stmtOf op) ∧ Trimmed (stmtOf op) ∧ stmtOf op ≠ []) ∧ keep g = true ∧
    ∀ r : Reader, r.sawVersion = true → r.qregs.lookup ['q'] = some ⟨0, n⟩ → (m ≠ 0 → r.cregs.lookup ['c'] = some ⟨0, m⟩) →
      r.handle lib (stmtOf op) = .ok { r with circuit := ⟨r.circuit.gates ++ [g], r.circuit.conds ++ [none]⟩ } := by
  rcases hg with ⟨u, rfl, hv, hd⟩ | ⟨q, b, reset, g, rfl, hmk, hb⟩ | ⟨p, rfl⟩ | ⟨p, rfl⟩
  · obtain ⟨name, θs, qs, d, rfl, hname, hθ, hne, hnd, hlt, hgate, hbuild⟩ := lowered_describes hv h
    have hnum : ∀ θ ∈ θs, NumberText (lib.format θ) ∧ parseAngle lib (lib.format θ) = .ok θ := by
      intro θ h
      rw [hθ] at h
      exact parseAngle_format hs hf (hd θ h)
    have hn' := exportNames_ok hname
    refine ⟨gate_stmt hn' ?_ hne, ?_, ?_⟩
    · intro p hp
      obtain ⟨x, hx, rfl⟩ := List.mem_map.1 hp
      exact (hnum x hx).1
    · cases u with
      | ident => cases h
      | _ => rfl
    · intro r hv hq hc
      exact handle_written hv hq hn hn' hnum hne (requiredOf_lt (fun q hq => mask_bit_lt ((hlt q).1 hq)) hr.1) hnd hgate hbuild
  · obtain ⟨rfl, hmk', hq⟩ := lowered_measure hmk h
    refine ⟨measure_stmt _ _, rfl, ?_⟩
    intro r hv hqr hcr
    have h2 : (b + 1) % 2 ^ 64 ≤ m := hr.2
    rw [Nat.mod_eq_of_lt hb] at h2
    exact handle_measure hqr hn (hcr (by omega)) hm (requiredOf_lt (qs := [q]) (by simpa using hq) hr.1 q (by simp)) (by omega) hmk'
  · cases h
  · cases h

theorem read_loop {lib : Libc} (hs : StrtodOK lib.strtod) (hf : FormatOK lib.format) {gs : List Item} (hg : ∀ g ∈ gs, FromFactory g)
    {ops : List Qasm2Op} (he : Exported lib gs ops) {n m : Nat} (hr : Fits n m ops) (hn : n < 2 ^ 64) (hm : m < 2 ^ 64) :
    (∀ s ∈ ops.map stmtOf, Plain s ∧ Trimmed s ∧ s ≠ []) ∧
    ∀ r : Reader, r.sawVersion = true → r.qregs.lookup ['q'] = some ⟨0, n⟩ → (m ≠ 0 → r.cregs.lookup ['c'] = some ⟨0, m⟩) →
      (ops.map stmtOf).foldlM (Reader.handle lib) r = .ok { r with
        circuit := ⟨r.circuit.gates ++ gs.filter keep, r.circuit.conds ++ (gs.filter keep).map fun _ => none⟩ } := by
  induction he with
  | nil =>
    refine ⟨by simp, ?_⟩
    intro r _ _ _
    simp [pure, Except.pure]
  | skip g gs ops h0 he ih =>
    have hk : keep g = false := by rw [lowered_none h0]; rfl
    obtain ⟨i1, i2⟩ := ih (fun x hx => hg x (List.mem_cons_of_mem _ hx)) hr
    refine ⟨i1, ?_⟩
    rw [List.filter_cons_of_neg (by rw [hk]; simp)]
    exact i2
  | cons g gs op ops h0 he ih =>
    obtain ⟨i1, i2⟩ := ih (fun x hx => hg x (List.mem_cons_of_mem _ hx)) (fun x hx => hr x (List.mem_cons_of_mem _ hx))
    obtain ⟨e1, e2, e3⟩ := read_entry hs hf (hg g List.mem_cons_self) h0 (hr op List.mem_cons_self) hn hm
    refine ⟨?_, ?_⟩
    · intro s hs
      rcases List.mem_cons.1 hs with rfl | hs
      · exact e1
      · exact i1 s hs
    · intro r hv hq hc
      rw [List.map_cons, List.foldlM_cons, e3 r hv hq hc, ok_bind, List.filter_cons_of_pos e2]
      refine (i2 { r with circuit := ⟨r.circuit.gates ++ [g], r.circuit.conds ++ [none]⟩ } hv hq hc).trans ?_
      simp

/-- the text written by `dumps` -/
theorem dumps_text {lib : Libc} {C : Circuit} {nq : Option Nat} {text : Text} (h : dumps lib C nq = .ok text) :
    ∃ ops rq rc, Exported lib C.gates ops ∧ rq = ops.foldl (fun m op => max m op.required.1) 0 ∧
      rc = ops.foldl (fun m op => max m op.required.2) 0 ∧ rq ≤ nq.getD rq ∧ nq.getD rq ≠ 0 ∧
      text = t! "OPENQASM 2.0;\ninclude \"qelib1.inc\";\n" ++ (((t! "qreg" ++ ' ' :: indexed 'q' (nq.getD rq)) ::
        (if rc ≠ 0 then [t! "creg" ++ ' ' :: indexed 'c' rc] else []) ++ ops.map stmtOf).flatMap fun s => s ++ t! ";\n") := by
  unfold dumps at h
  obtain ⟨⟨rq, rc, body⟩, h1, h2⟩ := bind_ok h
  obtain ⟨ops, e1, e2, e3, e4⟩ := dump_loop h1
  dsimp only at h2 e2 e3 e4
  split at h2
  · cases h2
  rename_i hn
  split at h2
  · cases h2
  rename_i h0
  cases h2
  refine ⟨ops, rq, rc, e1, e3, e4, ?_, h0, ?_⟩
  · cases nq with
    | none => exact le_refl _
    | some n =>
      simp at hn
      exact hn
  · rw [e2]
    by_cases hc : rc = 0
    · simp [hc, indexed]
    · simp [hc, indexed]

/-! ## registers of the exported text -/

theorem foldl_max_le_iff {α : Type} (f : α → Nat) (l : List α) (n : Nat) : l.foldl (fun m a => max m (f a)) 0 ≤ n ↔ ∀ a ∈ l, f a ≤ n := by
  obtain ⟨-, h2, h3⟩ := foldl_max_le f l 0
  constructor
  · intro h a ha
    exact le_trans (h2 a ha) h
  · intro h
    rcases h3 with h3 | ⟨a, ha, h3⟩
    · rw [h3]; omega
    · rw [h3]; exact h a ha

theorem requiredOf_le_iff {qs : List Nat} (h : ∀ q ∈ qs, q < 64) (n : Nat) : requiredOf qs ≤ n ↔ ∀ q ∈ qs, q < n := by
  unfold requiredOf
  rw [foldl_max_le_iff]
  constructor <;> intro h' q hq <;> have := h' q hq <;> have := h q hq
  · rw [Nat.mod_eq_of_lt (by omega)] at *
    omega
  · rw [Nat.mod_eq_of_lt (by omega)]
    omega

/-- the qubits and bits of what is written for an entry are those of the entry -/
theorem required_entry {lib : Libc} {g : Item} (hg : FromFactory g) {op : Qasm2Op} (h : lowered lib g = .ok (some op)) (n : Nat) :
    (op.required.1 ≤ n ↔ ∀ i, (Item.operandMask g).getLsbD i = true → i < n) ∧
    (op.required.2 ≤ n ↔ ∀ m, g = .inl (.meas m) → m.cbit < n) := by
  rcases hg with ⟨u, rfl, hv, hd⟩ | ⟨q, b, reset, g, rfl, hmk, hb⟩ | ⟨p, rfl⟩ | ⟨p, rfl⟩
  · obtain ⟨name, θs, qs, d, rfl, hname, hθ, hne, hnd, hlt, hgate, hbuild⟩ := lowered_describes hv h
    constructor
    · show requiredOf qs ≤ n ↔ _
      rw [requiredOf_le_iff fun q hq => mask_bit_lt ((hlt q).1 hq)]
      constructor
      · intro h i hi; exact h i ((hlt i).2 hi)
      · intro h i hi; exact h i ((hlt i).1 hi)
    · constructor
      · intro _ m hm; cases hm
      · intro _; exact Nat.zero_le _
  · obtain ⟨rfl, hmk', hq⟩ := lowered_measure hmk h
    unfold mkMeas at hmk
    obtain ⟨t, ht, hmk⟩ := bind_ok hmk
    obtain ⟨o, ho, hmk⟩ := bind_ok hmk
    cases hmk
    have hm : mkOperands [q] [] [] = .ok o := by
      unfold mkOperands
      rw [show resizeAndCheckControlValues [] [] = .ok [] from rfl, ok_bind, ht, ok_bind]
      exact ho
    obtain ⟨-, -, -, -, -, -, -, tb, cb, -⟩ := mkOperands_ok hm
    constructor
    · show requiredOf [q] ≤ n ↔ ∀ i, (o.t ||| o.c).getLsbD i = true → i < n
      rw [requiredOf_le_iff (by simpa using hq)]
      simp only [BitVec.getLsbD_or, tb, cb]
      simp
    · show (b + 1) % 2 ^ 64 ≤ n ↔ _
      rw [Nat.mod_eq_of_lt hb]
      constructor
      · intro h m e; cases e; exact h
      · intro h; exact h _ rfl
  · cases h
  · cases h

theorem required_all {lib : Libc} {gs : List Item} (hg : ∀ g ∈ gs, FromFactory g) {ops : List Qasm2Op} (he : Exported lib gs ops) (n : Nat) :
    ((∀ op ∈ ops, op.required.1 ≤ n) ↔ ∀ g ∈ gs, ∀ i, (Item.operandMask g).getLsbD i = true → i < n) ∧
    ((∀ op ∈ ops, op.required.2 ≤ n) ↔ ∀ m, .inl (.meas m) ∈ gs → m.cbit < n) := by
  induction he with
  | nil => simp
  | skip g gs ops h0 he ih =>
    obtain ⟨i1, i2⟩ := ih fun x hx => hg x (List.mem_cons_of_mem _ hx)
    rw [i1, i2]
    cases lowered_none h0
    constructor
    · constructor
      · intro h g hg i hi
        rcases List.mem_cons.1 hg with rfl | hg
        · exact absurd hi (by unfold Item.operandMask Gate.operandMask UGate.operands; simp)
        · exact h g hg i hi
      · intro h g hg
        exact h g (List.mem_cons_of_mem _ hg)
    · simp
  | cons g gs op ops h0 he ih =>
    obtain ⟨i1, i2⟩ := ih fun x hx => hg x (List.mem_cons_of_mem _ hx)
    obtain ⟨e1, e2⟩ := required_entry (hg g List.mem_cons_self) h0 n
    constructor
    · rw [List.forall_mem_cons, List.forall_mem_cons, e1, i1]
    · rw [List.forall_mem_cons, e2, i2]
      constructor
      · rintro ⟨h1, h2⟩ m hm
        rcases List.mem_cons.1 hm with h | h
        · exact h1 m h.symm
        · exact h2 m h
      · intro h
        exact ⟨fun m e => h m (by rw [e]; exact List.mem_cons_self), fun m hm => h m (List.mem_cons_of_mem _ hm)⟩

theorem required_eq {lib : Libc} {C : Circuit} (hC : ∀ g ∈ C.gates, FromFactory g) {ops : List Qasm2Op} (he : Exported lib C.gates ops) :
    ops.foldl (fun m op => max m op.required.1) 0 = C.requiredQubits := by
  have key : ∀ n, ops.foldl (fun m op => max m op.required.1) 0 ≤ n ↔ C.requiredQubits ≤ n := by
    intro n
    rw [foldl_max_le_iff, (required_all hC he n).1]
    unfold Circuit.requiredQubits
    rw [bitWidth_le_iff]
    constructor
    · intro h i hi
      rw [foldl_or_bit] at hi
      rcases hi with hi | ⟨g, hg, hi⟩
      · rw [zero_bit] at hi; cases hi
      exact h g hg i hi
    · intro h g hg i hi
      apply h
      rw [foldl_or_bit]
      exact .inr ⟨g, hg, hi⟩
  exact le_antisymm ((key _).2 (le_refl _)) ((key _).1 (le_refl _))

/-- **export then import** -/
theorem loads_dumps {lib : Libc} (hs : StrtodOK lib.strtod) (hf : FormatOK lib.format) {C : Circuit} (hC : ∀ g ∈ C.gates, FromFactory g)
    {nq : Option Nat} (hq : ∀ n, nq = some n → n < 2 ^ 64) {text : Text} (h : dumps lib C nq = .ok text) :
    ∃ R, loads lib text = .ok R ∧ R.circuit = ⟨C.gates.filter keep, (C.gates.filter keep).map fun _ => none⟩ ∧
      R.nQubits = nq.getD C.requiredQubits ∧ C.requiredQubits ≤ R.nQubits ∧
      (∀ k, R.nClbits ≤ k ↔ ∀ m, .inl (.meas m) ∈ C.gates → m.cbit < k) ∧ R.warnings = [] := by
  obtain ⟨ops, rq, rc, he, hrq, hrc, hle, h0, rfl⟩ := dumps_text h
  have hfit : Fits (nq.getD rq) rc ops := by
    intro op hop
    refine ⟨le_trans ?_ hle, ?_⟩
    · rw [hrq]; exact (foldl_max_le (fun op : Qasm2Op => op.required.1) ops 0).2.1 op hop
    · rw [hrc]; exact (foldl_max_le (fun op : Qasm2Op => op.required.2) ops 0).2.1 op hop
  have hreq : ∀ op : Qasm2Op, op.required.1 < 2 ^ 64 ∧ op.required.2 < 2 ^ 64 := by
    intro op
    have hro : ∀ qs, requiredOf qs < 2 ^ 64 := by
      intro qs
      unfold requiredOf
      rcases (foldl_max_le (fun q => (q + 1) % 2 ^ 64) qs 0).2.2 with e | ⟨q, -, e⟩
      · rw [e]; norm_num
      · rw [e]; exact Nat.mod_lt _ (by norm_num)
    cases op with
    | gate name ps qs => exact ⟨hro qs, by show 0 < _; norm_num⟩
    | measure t b => exact ⟨hro [t], Nat.mod_lt _ (by norm_num)⟩
  have hrq64 : rq < 2 ^ 64 := by
    rw [hrq]
    rcases (foldl_max_le (fun op : Qasm2Op => op.required.1) ops 0).2.2 with e | ⟨op, -, e⟩
    · rw [e]; norm_num
    · rw [e]; exact (hreq op).1
  have hrc64 : rc < 2 ^ 64 := by
    rw [hrc]
    rcases (foldl_max_le (fun op : Qasm2Op => op.required.2) ops 0).2.2 with e | ⟨op, -, e⟩
    · rw [e]; norm_num
    · rw [e]; exact (hreq op).2
  have hn64 : nq.getD rq < 2 ^ 64 := by
    cases nq with
    | none => exact hrq64
    | some n => exact hq n rfl
  have hC' : rq = C.requiredQubits := hrq.trans (required_eq hC he)
  have hcl : ∀ k, rc ≤ k ↔ ∀ m, .inl (.meas m) ∈ C.gates → m.cbit < k := by
    intro k
    rw [hrc, foldl_max_le_iff, (required_all hC he k).2]
  obtain ⟨l1, l2⟩ := read_loop hs hf hC he hfit hn64 hrc64
  have hsplit := split_exported ((t! "qreg" ++ ' ' :: indexed 'q' (nq.getD rq)) ::
        (if rc ≠ 0 then [t! "creg" ++ ' ' :: indexed 'c' rc] else []) ++ ops.map stmtOf) (by
    intro s hs
    rcases List.mem_append.1 hs with hs | hs
    · rcases List.mem_cons.1 hs with rfl | hs
      · exact register_stmt (.inl rfl) (.inl rfl) _
      · split at hs
        · rw [List.mem_singleton.1 hs]; exact register_stmt (.inr rfl) (.inr rfl) _
        · cases hs
    · exact l1 s hs)
  have hload : ∃ cregs, loads lib (t! "OPENQASM 2.0;\ninclude \"qelib1.inc\";\n" ++ (((t! "qreg" ++ ' ' :: indexed 'q' (nq.getD rq)) ::
        (if rc ≠ 0 then [t! "creg" ++ ' ' :: indexed 'c' rc] else []) ++ ops.map stmtOf).flatMap fun s => s ++ t! ";\n")) =
      .ok ⟨⟨C.gates.filter keep, (C.gates.filter keep).map fun _ => none⟩, nq.getD rq, rc, [], [(['q'], ⟨0, nq.getD rq⟩)], cregs, true⟩ := by
    unfold loads
    rw [hsplit, ok_bind, List.foldlM_cons, handle_version, ok_bind, List.foldlM_cons, handle_include, ok_bind]
    by_cases hc : rc = 0
    · refine ⟨[], ?_⟩
      rw [if_neg (not_not.2 hc), List.cons_append, List.nil_append, List.foldlM_cons, handle_qreg h0 hn64 rfl rfl, ok_bind]
      refine (l2 _ rfl rfl (fun h => absurd hc h)).trans ?_
      rw [hc]
      simp [Reader.start, Circuit.empty]
    · refine ⟨[(['c'], ⟨0, rc⟩)], ?_⟩
      rw [if_pos hc, List.cons_append, List.singleton_append, List.foldlM_cons, handle_qreg h0 hn64 rfl rfl, ok_bind,
        List.foldlM_cons, handle_creg hc hrc64 rfl rfl, ok_bind]
      refine (l2 _ rfl rfl (fun _ => rfl)).trans ?_
      simp [Reader.start, Circuit.empty]
  obtain ⟨cregs, hload⟩ := hload
  exact ⟨_, hload, rfl, by rw [hC'], by rw [← hC']; exact hle, hcl, rfl⟩

end Verif.Proofs
