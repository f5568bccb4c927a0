import Verif.Proofs.Circuit

/-! # Running a circuit on a single state -/

namespace Verif.Proofs
open Verif Verif.Spec Verif.Model
attribute [-simp] BitVec.getLsbD_eq_getElem

/-! ## operand masks -/

theorem foldl_or_bit {α : Type} (f : α → U64) (l : List α) (m : U64) (i : Nat) :
    (l.foldl (fun m a => m ||| f a) m).getLsbD i = true ↔ m.getLsbD i = true ∨ ∃ a ∈ l, (f a).getLsbD i = true := by
  induction l generalizing m with
  | nil => simp
  | cons a l ih =>
    rw [List.foldl_cons, ih, BitVec.getLsbD_or, Bool.or_eq_true]
    simp only [List.mem_cons, exists_eq_or_imp, or_assoc]

theorem zero_bit (i : Nat) : (0 : U64).getLsbD i = false := BitVec.getLsbD_zero

theorem build_mask {d : GateDesc} {g : UGate} (hd : DescOK d) (h : d.build = .ok g) (i : Nat) :
    (g.operands.t ||| g.operands.c).getLsbD i = true ↔ i ∈ qubitsOf d := by
  obtain ⟨ts, hmk, hp⟩ := build_operands h
  obtain ⟨-, -, -, -, -, -, -, tb, -, -⟩ := mkOperands_ok hmk
  obtain ⟨-, -, hs⟩ := build_valid hd h
  rw [BitVec.getLsbD_or, Bool.or_eq_true, tb]
  unfold qubitsOf
  rw [List.mem_append, List.mem_map, decide_eq_true_eq, hp.mem_iff]
  refine or_congr Iff.rfl ?_
  have := hs.2 i
  unfold UGate.cs at this
  constructor
  · intro hc
    obtain ⟨b, hb⟩ := this.1 ⟨g.operands.v.getLsbD i, List.mem_map.2 ⟨i, mem_maskToVector.2 hc, rfl⟩⟩
    exact ⟨_, hb, rfl⟩
  · rintro ⟨⟨i', b⟩, hb, rfl⟩
    obtain ⟨b', hb'⟩ := this.2 ⟨b, hb⟩
    obtain ⟨k, hk, e⟩ := List.mem_map.1 hb'
    injection e with e1 e2
    subst e1
    exact mem_maskToVector.1 hk

theorem rot_mask {r : RotDesc} {p : PRot} (h : r.build = .ok p) (i : Nat) :
    (p.operands.t ||| p.operands.c).getLsbD i = true ↔ i ∈ qubitsOf (r.at 0) := by
  have := build_mask (rot_descOK r 0) (rot_build h 0) i
  rwa [fix_operands] at this

theorem leaf_mask {l : LeafDesc} {u : PLeaf} (hok : l.OK) (h : leafOf l = .ok u) (i : Nat) :
    u.operandMask.getLsbD i = true ↔ i ∈ qubitsOf (l.at 0) := by
  cases l with
  | fixed d =>
    obtain ⟨g, hg, h⟩ := bind_ok (show (do let g ← d.build; pure (PLeaf.fixed g)) = .ok u from h)
    cases h
    exact build_mask hok hg i
  | rot r =>
    obtain ⟨p, hp, h⟩ := bind_ok (show (do let p ← r.build; pure (PLeaf.rot p)) = .ok u from h)
    cases h
    exact rot_mask hp i

theorem mem_built {α β : Type} {f : α → Res β} {l : List α} {us : List β} (h : l.mapM f = .ok us) (P : α → Prop) (Q : β → Prop)
    (hpq : ∀ a ∈ l, ∀ b, f a = .ok b → (Q b ↔ P a)) : (∃ b ∈ us, Q b) ↔ ∃ a ∈ l, P a := by
  induction l generalizing us with
  | nil => cases h; simp
  | cons x l ih =>
    rw [List.mapM_cons] at h
    obtain ⟨u, hu, h⟩ := bind_ok h
    obtain ⟨us', hus', h⟩ := bind_ok h
    cases h
    have h1 := ih hus' fun a ha => hpq a (List.mem_cons_of_mem _ ha)
    have h2 := hpq x List.mem_cons_self u hu
    simp only [List.mem_cons, exists_eq_or_imp, h1, h2]

/-- the mask of an entry are the qubits of the instruction -/
theorem item_mask {ins : Instr} {g : Item} (hb : ins.build = .ok g) (hok : ins.OK) (i : Nat) :
    (Item.operandMask g).getLsbD i = true ↔ i ∈ ins.qubits := by
  cases ins with
  | gate d =>
    obtain ⟨g, hg, hb⟩ := bind_ok (show (do let g ← d.build; pure (Sum.inl (Gate.det g))) = .ok g from hb)
    cases hb
    exact build_mask hok hg i
  | choice ps ds =>
    obtain ⟨gs, hgs, hb⟩ := bind_ok (show (do
      let gs ← ds.mapM GateDesc.build
      let g ← mkProbabilistic (ps.map some) (gs.map .det)
      pure (Sum.inl g)) = .ok g from hb)
    obtain ⟨g, hg, hb⟩ := bind_ok hb
    cases hb
    obtain ⟨t, ht, hg⟩ := bind_ok (show (do
      let t ← mkProbTable (ps.map some) ((gs.map Gate.det).map Gate.component)
      pure (Gate.prob t)) = .ok g from hg)
    cases hg
    rw [List.map_map, show Gate.component ∘ Gate.det = Component.leaf from rfl] at ht
    obtain ⟨-, rfl, rfl⟩ := mkProbTable_leaf ht
    show (t.gates.foldl (fun m (g : UGate) => m ||| (g.operands.t ||| g.operands.c)) 0).getLsbD i = true ↔ i ∈ ds.flatMap qubitsOf
    rw [foldl_or_bit, zero_bit, List.mem_flatMap]
    simp only [Bool.false_eq_true, false_or]
    exact mem_built hgs _ _ fun d hd g hg => build_mask (hok d hd) hg i
  | measure q cbit reset =>
    obtain ⟨g, hg, hb⟩ := bind_ok (show (do let g ← mkMeas q cbit reset; pure (Sum.inl (Gate.meas g))) = .ok g from hb)
    cases hb
    obtain ⟨ho, -, -⟩ := mkMeas_ok hg
    obtain ⟨-, -, -, -, -, -, -, tb, cb, -⟩ := mkOperands_ok ho
    show (g.o.t ||| g.o.c).getLsbD i = true ↔ i ∈ [q]
    rw [BitVec.getLsbD_or, tb, cb]
    simp
  | rot r key =>
    obtain ⟨p, hp, hb⟩ := bind_ok (show (do let p ← r.build; pure (Sum.inr (PGate.rot p, key))) = .ok g from hb)
    cases hb
    exact rot_mask hp i
  | pchoice ps ls key =>
    obtain ⟨gs, hgs, hb⟩ := bind_ok (show (do
      let gs ← ls.mapM LeafDesc.build
      let p ← mkParamProbabilistic (ps.map some) gs
      pure (Sum.inr (p, key))) = .ok g from hb)
    obtain ⟨p, hpb, hb⟩ := bind_ok hb
    cases hb
    obtain ⟨tb, htb, hpb⟩ := bind_ok (show (do
      let t ← mkProbTable (ps.map some) (gs.map eitherComponent)
      pure (PGate.prob t)) = .ok p from hpb)
    cases hpb
    obtain ⟨us, hus, he⟩ := leaves_build hgs
    rw [he] at htb
    obtain ⟨-, rfl, rfl⟩ := mkProbTable_leaf htb
    show (tb.gates.foldl (fun m (g : PLeaf) => m ||| g.operandMask) 0).getLsbD i = true ↔ i ∈ ls.flatMap fun l => qubitsOf (l.at 0)
    rw [foldl_or_bit, zero_bit, List.mem_flatMap]
    simp only [Bool.false_eq_true, false_or]
    exact mem_built hus _ _ fun d hd g hg => leaf_mask (hok d hd) hg i

theorem and_zero_iff (a b : U64) : a &&& b = 0 ↔ ∀ i, a.getLsbD i = true → b.getLsbD i = true → False := by
  constructor
  · intro h i h1 h2
    have := congrArg (fun x => x.getLsbD i) h
    simp only [BitVec.getLsbD_and, h1, h2, Bool.and_true] at this
    rw [zero_bit] at this
    simp at this
  · intro h
    apply U64.ext
    intro i _
    rw [BitVec.getLsbD_and, zero_bit]
    by_contra hc
    simp only [Bool.not_eq_false, Bool.and_eq_true] at hc
    exact h i hc.1 hc.2

theorem bitWidth_le_iff (m : U64) (n : Nat) : bitWidth m ≤ n ↔ ∀ i, m.getLsbD i = true → i < n := by
  unfold bitWidth
  by_cases h0 : m = 0
  · rw [if_pos h0]
    subst h0
    simp
  · rw [if_neg h0]
    have hne : m.toNat ≠ 0 := fun h => h0 (BitVec.eq_of_toNat_eq h)
    constructor
    · intro h i hi
      have : 2 ^ i ≤ m.toNat := Nat.ge_two_pow_of_testBit hi
      have := (Nat.le_log2 hne).2 this
      omega
    · intro h
      have : m.toNat.testBit (Nat.log2 m.toNat) = true := by
        rw [Nat.testBit_log2]; simpa using hne
      have := h _ this
      omega

/-! ## the loop as a run over the entries -/

/-- one entry with its condition -/
def lineStep (L n : Nat) (rnd : Nat → ℝ) (θ : String → Option ℝ) (p : Option Condition × Item) (s s' : Context × U64)
    (f : Option Fault) : Prop :=
  match evalCond p.1 s.1.reg with
  | .error e => s' = s ∧ f = some e
  | .ok false => s' = s ∧ f = none
  | .ok true => Item.RunsOn L n rnd θ p.2 s s' f

theorem seqRun_congr {ι κ C : Type} {S : ι → C → C → Option Fault → Prop} {T : κ → C → C → Option Fault → Prop} {is : List ι}
    {ks : List κ} (h : List.Forall₂ (fun i k => ∀ c c' f, S i c c' f ↔ T k c c' f) is ks) {c c' : C} {f : Option Fault} :
    SeqRun S is c c' f ↔ SeqRun T ks c c' f := by
  induction h generalizing c with
  | nil => exact ⟨fun h => by cases h; exact .nil _, fun h => by cases h; exact .nil _⟩
  | cons hik _ ih =>
    constructor
    · intro h
      cases h with
      | cons _ _ _ c1 _ _ h1 h2 => exact .cons _ _ _ c1 _ _ ((hik _ _ _).1 h1) (ih.1 h2)
      | stop _ _ _ _ e h1 => exact .stop _ _ _ _ e ((hik _ _ _).1 h1)
    · intro h
      cases h with
      | cons _ _ _ c1 _ _ h1 h2 => exact .cons _ _ _ c1 _ _ ((hik _ _ _).2 h1) (ih.2 h2)
      | stop _ _ _ _ e h1 => exact .stop _ _ _ _ e ((hik _ _ _).2 h1)

theorem forall2_range {α : Type} (l : List α) (N : Nat) (hN : N = l.length) (R : Nat → α → Prop) (h : ∀ i (hi : i < l.length), R i l[i]) :
    List.Forall₂ R (List.range N) l := by
  subst hN
  rw [List.forall₂_iff_get]
  refine ⟨by simp, fun i h1 h2 => ?_⟩
  simpa using h i h2

theorem circuit_loop {C : Circuit} (hC : C.conds.length = C.gates.length) {L n : Nat} {rnd : Nat → ℝ} {θ : String → Option ℝ}
    {s s' : Context × U64} {f : Option Fault} :
    SeqRun (C.StepOn L n rnd θ) (List.range C.gates.length) s s' f ↔ SeqRun (lineStep L n rnd θ) (C.conds.zip C.gates) s s' f := by
  refine seqRun_congr (forall2_range _ _ (by simp [hC]) _ fun i hi c c' f => ?_)
  rw [List.length_zip] at hi
  rw [List.getElem_zip]
  unfold Circuit.StepOn
  rw [List.getElem?_eq_getElem (by omega), List.getElem?_eq_getElem (by omega)]
  exact Iff.rfl

/-! ## uniqueness -/

theorem PRot.runsOn_unique {L n : Nat} {t : ℝ} {g : PRot} {c c1 c2 : Context} {f1 f2 : Option Fault}
    (h1 : g.RunsOn L n t c c1 f1) (h2 : g.RunsOn L n t c c2 f2) : c1 = c2 ∧ f1 = f2 := by
  unfold PRot.RunsOn at h1 h2
  cases hu : g.update L n t with
  | error e => rw [hu] at h1 h2; exact ⟨h1.1.trans h2.1.symm, h1.2.trans h2.2.symm⟩
  | ok dev =>
    rw [hu] at h1 h2
    exact ⟨Context.ext (h1.2.2.2.unique h2.2.2.2) (h1.2.1.trans h2.2.1.symm) (h1.2.2.1.trans h2.2.2.1.symm), h1.1.trans h2.1.symm⟩

theorem PGate.runsOn_unique {L n : Nat} {rnd : Nat → ℝ} {t : ℝ} {g : PGate} {c c1 c2 : Context} {f1 f2 : Option Fault}
    (h1 : g.RunsOn L n rnd t c c1 f1) (h2 : g.RunsOn L n rnd t c c2 f2) : c1 = c2 ∧ f1 = f2 := by
  cases g with
  | rot g => exact PRot.runsOn_unique (g := g) h1 h2
  | prob tb =>
    unfold PGate.RunsOn at h1 h2
    dsimp only at h1 h2
    cases hs : tb.select (rnd c.pos) with
    | error e => rw [hs] at h1 h2; exact ⟨h1.1.trans h2.1.symm, h1.2.trans h2.2.symm⟩
    | ok u =>
      rw [hs] at h1 h2
      cases u with
      | fixed u => exact UGate.runsOn_unique (g := u) h1 h2
      | rot u => exact PRot.runsOn_unique (g := u) h1 h2

theorem Item.runsOn_unique {L n : Nat} {rnd : Nat → ℝ} {θ : String → Option ℝ} {g : Item} {s s1 s2 : Context × U64} {f1 f2 : Option Fault}
    (h1 : Item.RunsOn L n rnd θ g s s1 f1) (h2 : Item.RunsOn L n rnd θ g s s2 f2) : s1 = s2 ∧ f1 = f2 := by
  unfold Item.RunsOn at h1 h2
  by_cases hm : s.2 &&& Item.operandMask g ≠ 0
  · rw [if_pos hm] at h1 h2; exact ⟨h1.1.trans h2.1.symm, h1.2.trans h2.2.symm⟩
  · rw [if_neg hm] at h1 h2
    rcases g with g | ⟨p, key⟩
    · obtain ⟨e1, e2⟩ := Gate.runsOn_unique h1.1 h2.1
      subst e2
      exact ⟨Prod.ext e1 (h1.2.trans h2.2.symm), rfl⟩
    · dsimp only at h1 h2
      cases hk : θ key with
      | none => rw [hk] at h1 h2; exact ⟨h1.1.trans h2.1.symm, h1.2.trans h2.2.symm⟩
      | some t =>
        rw [hk] at h1 h2
        obtain ⟨e1, e2⟩ := PGate.runsOn_unique h1.1 h2.1
        exact ⟨Prod.ext e1 (h1.2.trans h2.2.symm), e2⟩

theorem stepOn_unique {L n : Nat} {rnd : Nat → ℝ} {θ : String → Option ℝ} {C : Circuit} (i : Nat) (s s1 : Context × U64)
    (f1 : Option Fault) (s2 : Context × U64) (f2 : Option Fault)
    (h1 : C.StepOn L n rnd θ i s s1 f1) (h2 : C.StepOn L n rnd θ i s s2 f2) : s1 = s2 ∧ f1 = f2 := by
  unfold Circuit.StepOn at h1 h2
  cases hc : C.conds[i]? with
  | none => rw [hc] at h1 h2; exact ⟨h1.1.trans h2.1.symm, h1.2.trans h2.2.symm⟩
  | some c =>
    cases hg : C.gates[i]? with
    | none => rw [hc, hg] at h1 h2; exact ⟨h1.1.trans h2.1.symm, h1.2.trans h2.2.symm⟩
    | some g =>
      rw [hc, hg] at h1 h2
      dsimp only at h1 h2
      cases he : evalCond c s.1.reg with
      | error e => rw [he] at h1 h2; exact ⟨h1.1.trans h2.1.symm, h1.2.trans h2.2.symm⟩
      | ok b =>
        rw [he] at h1 h2
        cases b with
        | false => exact ⟨h1.1.trans h2.1.symm, h1.2.trans h2.2.symm⟩
        | true => exact Item.runsOn_unique h1 h2

theorem Circuit.runsOn_unique {L n : Nat} {rnd : Nat → ℝ} {θ : String → Option ℝ} {C : Circuit} {ψ : U64 → ℂ} {reg : List Bool}
    {c1 c2 : Context} {f1 f2 : Option Fault} (h1 : C.RunsOn L n rnd θ ψ reg c1 f1) (h2 : C.RunsOn L n rnd θ ψ reg c2 f2) :
    c1 = c2 ∧ f1 = f2 := by
  unfold Circuit.RunsOn at h1 h2
  cases hc : C.check n θ with
  | error e => rw [hc] at h1 h2; exact ⟨h1.1.trans h2.1.symm, h1.2.trans h2.2.symm⟩
  | ok _ =>
    rw [hc] at h1 h2
    obtain ⟨m1, h1⟩ := h1
    obtain ⟨m2, h2⟩ := h2
    obtain ⟨e1, e2⟩ := SeqRun.unique stepOn_unique h1 h2
    injection e1 with e1 _
    exact ⟨e1, e2⟩

/-! ## the steps of a history -/

/-- every bit of the mask is a qubit measured and not reset -/
def MaskIn (m : U64) (s : Situation) : Prop := ∀ i, m.getLsbD i = true → i ∈ s.measured

theorem effect_free {n : Nat} {θ : String → Option ℝ} {l : Line} {s s' : Situation} {us : List ℝ} (he : l.Effect n θ s us s')
    (hc : l.CondIs s.reg true) : ∀ q ∈ s.measured, q ∉ l.instr.qubits := by
  intro q hq
  cases he with
  | skip _ _ hf => exact absurd (condIs_unique hc hf) (by simp)
  | gate d c _ _ hm => exact hm q hq
  | choice ps ds c _ u k hk _ hm hp =>
    intro h
    obtain ⟨d, hd, h⟩ := List.mem_flatMap.1 h
    exact hm q hq d hd h
  | measure p cbit reset c _ u b _ hm => rintro (h : q ∈ [p]); rw [List.mem_singleton] at h; subst h; exact hm hq
  | rot r key t c _ _ hm ht => exact hm q hq
  | pchoice ps ls key t c _ u k hk _ hm ht hp =>
    intro h
    obtain ⟨d, hd, h⟩ := List.mem_flatMap.1 h
    exact hm q hq d hd h

/-- what an entry adds to the mask -/
def addedMask : Item → U64
  | .inl g => g.unresetMask
  | .inr _ => 0

theorem effect_measured {n : Nat} {θ : String → Option ℝ} {l : Line} {g : Item} (hb : l.instr.build = .ok g) {s s' : Situation}
    {us : List ℝ} (he : l.Effect n θ s us s') :
    (∀ q ∈ s.measured, q ∈ s'.measured) ∧ (l.CondIs s.reg true → ∀ i, (addedMask g).getLsbD i = true → i ∈ s'.measured) := by
  cases he with
  | skip _ _ hf => exact ⟨fun _ h => h, fun hc => absurd (condIs_unique hc hf) (by simp)⟩
  | gate d c _ _ hm =>
    obtain ⟨g, hg, hb⟩ := bind_ok (show (do let g ← d.build; pure (Sum.inl (Gate.det g))) = .ok g from hb)
    cases hb
    exact ⟨fun _ h => h, fun _ i hi => by rw [show addedMask _ = 0 from rfl, zero_bit] at hi; simp at hi⟩
  | choice ps ds c _ u k hk _ hm hp =>
    obtain ⟨gs, hgs, hb⟩ := bind_ok (show (do
      let gs ← ds.mapM GateDesc.build
      let g ← mkProbabilistic (ps.map some) (gs.map .det)
      pure (Sum.inl g)) = .ok g from hb)
    obtain ⟨g, hg, hb⟩ := bind_ok hb
    cases hb
    obtain ⟨t, ht, hg⟩ := bind_ok (show (do
      let t ← mkProbTable (ps.map some) ((gs.map Gate.det).map Gate.component)
      pure (Gate.prob t)) = .ok g from hg)
    cases hg
    exact ⟨fun _ h => h, fun _ i hi => by rw [show addedMask _ = 0 from rfl, zero_bit] at hi; simp at hi⟩
  | measure p cbit reset c _ u b _ hm =>
    obtain ⟨g, hg, hb⟩ := bind_ok (show (do let g ← mkMeas p cbit reset; pure (Sum.inl (Gate.meas g))) = .ok g from hb)
    cases hb
    obtain ⟨ho, -, rfl⟩ := mkMeas_ok hg
    refine ⟨fun q h => ?_, fun _ i hi => ?_⟩
    · dsimp only
      split
      · exact h
      · exact List.mem_cons_of_mem _ h
    · change (if g.reset = true then (0 : U64) else g.o.t).getLsbD i = true at hi
      dsimp only
      by_cases hr : g.reset = true
      · rw [if_pos hr, zero_bit] at hi; simp at hi
      · rw [if_neg hr] at hi ⊢
        rw [(isBit_of ho).2, decide_eq_true_eq] at hi
        subst hi
        exact List.mem_cons_self
  | rot r key t c _ _ hm ht =>
    obtain ⟨p, hp, hb⟩ := bind_ok (show (do let p ← r.build; pure (Sum.inr (PGate.rot p, key))) = .ok g from hb)
    cases hb
    exact ⟨fun _ h => h, fun _ i hi => by rw [show addedMask _ = 0 from rfl, zero_bit] at hi; simp at hi⟩
  | pchoice ps ls key t c _ u k hk _ hm ht hp =>
    obtain ⟨gs, hgs, hb⟩ := bind_ok (show (do
      let gs ← ls.mapM LeafDesc.build
      let p ← mkParamProbabilistic (ps.map some) gs
      pure (Sum.inr (p, key))) = .ok g from hb)
    obtain ⟨p, hpb, hb⟩ := bind_ok hb
    cases hb
    exact ⟨fun _ h => h, fun _ i hi => by rw [show addedMask _ = 0 from rfl, zero_bit] at hi; simp at hi⟩

theorem effect_measured_iff {n : Nat} {θ : String → Option ℝ} {l : Line} {g : Item} (hb : l.instr.build = .ok g) {s s' : Situation}
    {us : List ℝ} (he : l.Effect n θ s us s') (hc : l.CondIs s.reg true) (i : Nat) :
    i ∈ s'.measured ↔ i ∈ s.measured ∨ (addedMask g).getLsbD i = true := by
  have hm := (effect_measured hb he)
  refine ⟨fun h => ?_, fun h => h.elim (hm.1 i) (hm.2 hc i)⟩
  cases he with
  | skip _ _ hf => exact Or.inl h
  | gate d c _ _ hm => exact Or.inl h
  | choice ps ds c _ u k hk _ hm hp => exact Or.inl h
  | measure p cbit reset c _ u b _ hm =>
    obtain ⟨g, hg, hb⟩ := bind_ok (show (do let g ← mkMeas p cbit reset; pure (Sum.inl (Gate.meas g))) = .ok g from hb)
    cases hb
    obtain ⟨ho, -, rfl⟩ := mkMeas_ok hg
    change _ ∨ (if g.reset = true then (0 : U64) else g.o.t).getLsbD i = true
    dsimp only at h
    by_cases hr : g.reset = true
    · rw [if_pos hr] at h; exact Or.inl h
    · rw [if_neg hr] at h ⊢
      rcases List.mem_cons.1 h with h | h
      · exact Or.inr (by rw [(isBit_of ho).2, h]; simp)
      · exact Or.inl h
  | rot r key t c _ _ hm ht => exact Or.inl h
  | pchoice ps ls key t c _ u k hk _ hm ht hp => exact Or.inl h

theorem effect_cond {n : Nat} {θ : String → Option ℝ} {l : Line} {s s' : Situation} {us : List ℝ} (he : l.Effect n θ s us s') :
    l.CondIs s.reg true ∨ (l.CondIs s.reg false ∧ us = [] ∧ s' = s) := by
  cases he with
  | skip _ _ hf => exact Or.inr ⟨hf, rfl, rfl⟩
  | gate d c _ hc hm => exact Or.inl hc
  | choice ps ds c _ u k hk hc hm hp => exact Or.inl hc
  | measure p cbit reset c _ u b hc hm => exact Or.inl hc
  | rot r key t c _ hc hm ht => exact Or.inl hc
  | pchoice ps ls key t c _ u k hk hc hm ht hp => exact Or.inl hc

theorem evalCond_of {l : Line} {reg : List Bool} {b : Bool} (h : l.CondIs reg b) : evalCond l.cond reg = .ok b := by
  unfold Line.CondIs at h
  unfold evalCond
  cases hc : l.cond with
  | none => rw [hc] at h; rw [show b = true from h]
  | some f => rw [hc] at h; exact h

theorem line_step {l : Line} {g : Item} (hb : l.instr.build = .ok g) (hok : l.instr.OK) {L n : Nat} (hL : LanesOK L) (hn : n < 64)
    (hq : ∀ q ∈ l.instr.qubits, q < n) {θ : String → Option ℝ} {s s' : Situation} {us : List ℝ} (he : l.Effect n θ s us s')
    {rnd : Nat → ℝ} {pos : Nat} (hr : ∀ i (hi : i < us.length), rnd (pos + i) = us[i]) {m : U64} (hm : MaskIn m s) :
    ∃ m', (MaskIn m' s' ∧ ((∀ i ∈ s.measured, m.getLsbD i = true) → ∀ i ∈ s'.measured, m'.getLsbD i = true)) ∧ lineStep L n rnd θ (l.cond, g) (⟨s.psi, s.reg, pos⟩, m) (⟨s'.psi, s'.reg, pos + us.length⟩, m') none := by
  unfold lineStep
  dsimp only
  rcases effect_cond he with hc | ⟨hc, rfl, rfl⟩
  · rw [evalCond_of hc]
    dsimp only
    have hraw := item_raw hb hok hL hn hq he hc hr
    have hfree := effect_free he hc
    obtain ⟨hmono, hadd⟩ := effect_measured hb he
    have hz : m &&& Item.operandMask g = 0 := (and_zero_iff _ _).2 fun i h1 h2 => hfree i (hm i h1) ((item_mask hb hok i).1 h2)
    refine ⟨m ||| addedMask g, ⟨fun i hi => ?_, fun h i hi => ?_⟩, ?_⟩
    · rw [BitVec.getLsbD_or, Bool.or_eq_true] at hi
      rcases hi with hi | hi
      · exact hmono i (hm i hi)
      · exact hadd hc i hi
    · rw [BitVec.getLsbD_or, Bool.or_eq_true]
      exact ((effect_measured_iff hb he hc i).1 hi).imp (h i) id
    · unfold Item.RunsOn
      dsimp only
      rw [if_neg (by simpa using hz)]
      rcases g with g | ⟨p, key⟩
      · exact ⟨hraw, rfl⟩
      · obtain ⟨t, ht, hraw⟩ := hraw
        dsimp only
        rw [ht]
        exact ⟨hraw, by simp [addedMask]⟩
  · rw [evalCond_of hc]
    exact ⟨m, ⟨hm, fun h => h⟩, rfl, rfl⟩

theorem history_run {ls : List Line} {gs : List Item} (hb : ls.mapM (fun l => l.instr.build) = .ok gs) (hok : ∀ l ∈ ls, l.instr.OK)
    {L n : Nat} (hL : LanesOK L) (hn : n < 64) (hq : ∀ l ∈ ls, ∀ q ∈ l.instr.qubits, q < n) {θ : String → Option ℝ}
    {s s' : Situation} {uss : List (List ℝ)} (hh : History n θ ls s uss s') {rnd : Nat → ℝ} {pos : Nat}
    (hr : ∀ i (hi : i < uss.flatten.length), rnd (pos + i) = uss.flatten[i]) {m : U64} (hm : MaskIn m s) :
    ∃ m', (MaskIn m' s' ∧ ((∀ i ∈ s.measured, m.getLsbD i = true) → ∀ i ∈ s'.measured, m'.getLsbD i = true)) ∧ SeqRun (lineStep L n rnd θ) ((ls.map (·.cond)).zip gs) (⟨s.psi, s.reg, pos⟩, m)
      (⟨s'.psi, s'.reg, pos + uss.flatten.length⟩, m') none := by
  induction hh generalizing gs pos m with
  | nil s => cases hb; exact ⟨m, ⟨hm, fun h => h⟩, .nil _⟩
  | cons l ls s s1 s2 us uss he hh ih =>
    rw [List.mapM_cons] at hb
    obtain ⟨g, hg, hb⟩ := bind_ok hb
    obtain ⟨gs', hgs, hb⟩ := bind_ok hb
    cases hb
    simp only [List.flatten_cons, List.length_append] at hr ⊢
    obtain ⟨m1, ⟨hm1, hm1'⟩, h1⟩ := line_step hg (hok l List.mem_cons_self) hL hn (hq l List.mem_cons_self) he
      (rnd := rnd) (pos := pos) (fun i hi => by rw [hr i (by omega), List.getElem_append_left]) hm
    obtain ⟨m2, ⟨hm2, hm2'⟩, h2⟩ := ih hgs (fun l hl => hok l (List.mem_cons_of_mem _ hl)) (fun l hl => hq l (List.mem_cons_of_mem _ hl))
      (pos := pos + us.length) (fun i hi => by
        rw [Nat.add_assoc, hr (us.length + i) (by omega), List.getElem_append_right (by omega)]
        simp) hm1
    rw [Nat.add_assoc] at h2
    exact ⟨m2, ⟨hm2, fun h => hm2' (hm1' h)⟩, .cons _ _ _ _ _ _ h1 h2⟩

/-! ## the checks -/

/-- the keys of an instruction -/
def _root_.Verif.Spec.Instr.key? : Instr → Option String
  | .rot _ k => some k
  | .pchoice _ _ k => some k
  | _ => none

theorem item_key {ins : Instr} {g : Item} (hb : ins.build = .ok g) :
    match g with
    | .inl _ => ins.key? = none
    | .inr (_, k) => ins.key? = some k := by
  cases ins with
  | gate d =>
    obtain ⟨g, hg, hb⟩ := bind_ok (show (do let g ← d.build; pure (Sum.inl (Gate.det g))) = .ok g from hb)
    cases hb; rfl
  | choice ps ds =>
    obtain ⟨gs, hgs, hb⟩ := bind_ok (show (do
      let gs ← ds.mapM GateDesc.build
      let g ← mkProbabilistic (ps.map some) (gs.map .det)
      pure (Sum.inl g)) = .ok g from hb)
    obtain ⟨g, hg, hb⟩ := bind_ok hb
    cases hb; rfl
  | measure q cbit reset =>
    obtain ⟨g, hg, hb⟩ := bind_ok (show (do let g ← mkMeas q cbit reset; pure (Sum.inl (Gate.meas g))) = .ok g from hb)
    cases hb; rfl
  | rot r key =>
    obtain ⟨p, hp, hb⟩ := bind_ok (show (do let p ← r.build; pure (Sum.inr (PGate.rot p, key))) = .ok g from hb)
    cases hb; rfl
  | pchoice ps ls key =>
    obtain ⟨gs, hgs, hb⟩ := bind_ok (show (do
      let gs ← ls.mapM LeafDesc.build
      let p ← mkParamProbabilistic (ps.map some) gs
      pure (Sum.inr (p, key))) = .ok g from hb)
    obtain ⟨p, hpb, hb⟩ := bind_ok hb
    cases hb; rfl

theorem checkKeys_iff {α : Type} {θ : String → Option α} {gs : List Item} :
    (checkKeys θ gs = .ok () ↔ ∀ p k, Sum.inr (p, k) ∈ gs → θ k ≠ none) ∧
    (∀ e, checkKeys θ gs = .error e → ∃ k, e = .throw ("parameter named " ++ k ++ "is not given.") ∧ θ k = none) := by
  induction gs with
  | nil => exact ⟨⟨fun _ _ _ h => by simp at h, fun _ => rfl⟩, fun e h => by cases h⟩
  | cons g gs ih =>
    rcases g with g | ⟨p, k⟩
    · refine ⟨?_, ih.2⟩
      rw [show checkKeys θ (Sum.inl g :: gs) = checkKeys θ gs from rfl, ih.1]
      simp
    · unfold checkKeys
      cases hk : θ k with
      | none =>
        refine ⟨⟨fun h => (by cases h), fun h => absurd hk (h p k List.mem_cons_self)⟩, fun e h => ?_⟩
        injection h with h
        exact ⟨k, h.symm, hk⟩
      | some t =>
        refine ⟨?_, ih.2⟩
        dsimp only
        rw [ih.1]
        constructor
        · intro h p' k' hm
          rcases List.mem_cons.1 hm with e | hm
          · injection e with e; injection e with e1 e2; subst e2; rw [hk]; simp
          · exact h p' k' hm
        · exact fun h p' k' hm => h p' k' (List.mem_cons_of_mem _ hm)

theorem built_keys {ls : List Line} {gs : List Item} (hb : ls.mapM (fun l => l.instr.build) = .ok gs) (k : String) :
    (∃ p, Sum.inr (p, k) ∈ gs) ↔ ∃ l ∈ ls, l.instr.key? = some k := by
  have := mem_built hb (fun l => l.instr.key? = some k) (fun g : Item => ∃ p, g = Sum.inr (p, k)) (by
    intro l _ g hg
    have := item_key hg
    rcases g with g | ⟨p, k'⟩
    · simp [show l.instr.key? = none from this]
    · simp [show l.instr.key? = some k' from this])
  rw [← this]
  constructor
  · rintro ⟨p, h⟩; exact ⟨_, h, p, rfl⟩
  · rintro ⟨g, h, p, rfl⟩; exact ⟨p, h⟩

theorem checkQubits_iff {ls : List Line} {gs : List Item} (hb : ls.mapM (fun l => l.instr.build) = .ok gs)
    (hok : ∀ l ∈ ls, l.instr.OK) {cs : List (Option Condition)} (n : Nat) :
    (Circuit.checkQubits ⟨gs, cs⟩ n = .ok () ↔ ∀ l ∈ ls, ∀ q ∈ l.instr.qubits, q < n) ∧
    ∀ e, Circuit.checkQubits ⟨gs, cs⟩ n = .error e → ∃ s, e = .throw s := by
  have key : Circuit.requiredQubits ⟨gs, cs⟩ ≤ n ↔ ∀ l ∈ ls, ∀ q ∈ l.instr.qubits, q < n := by
    unfold Circuit.requiredQubits
    rw [bitWidth_le_iff]
    have : ∀ i, (gs.foldl (fun m g => m ||| Item.operandMask g) 0).getLsbD i = true ↔ ∃ l ∈ ls, i ∈ l.instr.qubits := by
      intro i
      rw [foldl_or_bit, zero_bit]
      simp only [Bool.false_eq_true, false_or]
      exact mem_built hb _ _ fun l hl g hg => item_mask hg (hok l hl) i
    constructor
    · intro h l hl q hq
      exact h q ((this q).2 ⟨l, hl, hq⟩)
    · intro h i hi
      obtain ⟨l, hl, hq⟩ := (this i).1 hi
      exact h l hl i hq
  unfold Circuit.checkQubits
  by_cases h : Circuit.requiredQubits ⟨gs, cs⟩ > n
  · rw [if_pos h]
    refine ⟨⟨fun h => (by cases h), fun h' => absurd (key.2 h') (by omega)⟩, fun e he => ?_⟩
    injection he with he
    exact ⟨_, he.symm⟩
  · rw [if_neg h]
    exact ⟨⟨fun _ => key.1 (by omega), fun _ => rfl⟩, fun e he => by cases he⟩

end Verif.Proofs
