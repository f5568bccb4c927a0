import Verif.Proofs.CircuitRun
import Verif.Props.Gates

/-! # Proofs about `Circuit::get_inverse` -/

namespace Verif.Proofs
open Verif Verif.Spec Verif.Model Verif.Props
attribute [-simp] BitVec.getLsbD_eq_getElem

theorem permCtor_o {dst : List Nat} {g : PermGate} (h : permCtor dst = .ok g) :
    ∃ one, shl1 dst.length = .ok one ∧ gateBase (one - 1) 0 0 = .ok g.o := by
  unfold permCtor at h
  obtain ⟨mask, -, h⟩ := bind_ok h
  obtain ⟨o, ho, h⟩ := bind_ok h
  obtain ⟨one, h1, h⟩ := bind_ok h
  split at h
  · cases h
  · next hm =>
    obtain ⟨s, hs, h⟩ := bind_ok h
    cases h
    rw [not_not] at hm
    exact ⟨one, h1, hm ▸ ho⟩

/-- the inverse has the same operands -/
theorem inverse_operands {g g' : UGate} (hv : Valid g) (h : g.inverse = .ok g') : g'.operands = g.operands := by
  cases g with
  | ident => cases h; rfl
  | globalPhase => cases h; rfl
  | one k o => obtain ⟨k', hk, h⟩ := bind_ok (show (do let k' ← gate1Inverse k; pure (UGate.one k' o)) = .ok g' from h); cases h; rfl
  | swap => cases h; rfl
  | ecr => cases h; rfl
  | perm g =>
    obtain ⟨p, hp, h⟩ := bind_ok (show (do let k' ← permInverse g; pure (UGate.perm k')) = .ok g' from h)
    cases h
    obtain ⟨hk, hc⟩ := hv
    obtain ⟨inv, p', h1, h2, h3, -, -⟩ := permInverse_ok hk hc
    rw [hp] at h1
    cases h1
    obtain ⟨one, e1, e2⟩ := permCtor_o hc
    obtain ⟨one', e1', e2'⟩ := permCtor_o h2
    rw [h3, e1] at e1'
    cases e1'
    rw [e2] at e2'
    exact (Except.ok.inj e2').symm
  | dense g =>
    obtain ⟨p, hp, h⟩ := bind_ok (show (do let k' ← denseInverse g; pure (UGate.dense k')) = .ok g' from h)
    cases h
    unfold denseInverse at hp
    split at hp
    · cases hp; rfl
    · cases hp
  | sparse => cases h
  | pauli => cases h; rfl
  | pauliRot => cases h; rfl

/-- a gate and its inverse, one after the other, on a single state -/
theorem ugate_back {d : GateDesc} {g g' : UGate} (hd : DescOK d) (hi : InverseDesc d) (h : d.build = .ok g) (h' : g.inverse = .ok g')
    {L n : Nat} (hL : LanesOK L) (hn : n < 64) (hq : ∀ q ∈ qubitsOf d, q < n) (ψ : U64 → ℂ) (reg : List Bool) (p p' : Nat) :
    ∃ ψ', g.RunsOn L n ⟨ψ, reg, p⟩ ⟨ψ', reg, p⟩ none ∧ g'.RunsOn L n ⟨ψ', reg, p'⟩ ⟨ψ, reg, p'⟩ none := by
  obtain ⟨hv, ho, hs⟩ := build_valid hd h
  obtain ⟨b1, b2⟩ := build_bounds hs hq
  obtain ⟨⟨dev, dev', h1, h2, h3⟩, -⟩ := undoes_of hv (inverseHyp_of hd h hi) h' (L := L) (B := 1) (n := n) ⟨hL, hn, one_fits hn⟩ b1 b2
  obtain ⟨m, ha, hb⟩ := h3 ψ
  refine ⟨m, ?_, ?_⟩
  · unfold UGate.RunsOn; rw [h1]; exact ⟨rfl, rfl, rfl, ha⟩
  · unfold UGate.RunsOn; rw [h2]; exact ⟨rfl, rfl, rfl, hb⟩

theorem prot_inverse_operands (p : PRot) : p.inverse.operands = p.operands := by cases p <;> rfl

theorem prot_inverse_fix (p : PRot) (t : ℝ) : (p.fix t).inverse = .ok (p.inverse.fix t) := by
  cases p with
  | axis a o k =>
    show (do let k' ← gate1Inverse (a.gate1 (k * t)); pure (UGate.one k' o)) = .ok (UGate.one (a.gate1 (-k * t)) o)
    rw [neg_mul]
    cases a <;> rfl
  | pauli g k =>
    show Except.ok (UGate.pauliRot g (-(k * t))) = .ok (UGate.pauliRot g (-k * t))
    rw [neg_mul]

theorem inverse_rot (r : RotDesc) (t : ℝ) : InverseDesc (r.at t) := by
  cases r with
  | axis a _ _ _ _ => cases a <;> trivial
  | pauli => trivial

theorem prot_back {r : RotDesc} {p : PRot} (h : r.build = .ok p) {L n : Nat} (hL : LanesOK L) (hn : n < 64)
    (hq : ∀ q ∈ qubitsOf (r.at 0), q < n) (t : ℝ) (ψ : U64 → ℂ) (reg : List Bool) (k k' : Nat) :
    ∃ ψ', p.RunsOn L n t ⟨ψ, reg, k⟩ ⟨ψ', reg, k⟩ none ∧ p.inverse.RunsOn L n t ⟨ψ', reg, k'⟩ ⟨ψ, reg, k'⟩ none := by
  obtain ⟨ψ', h1, h2⟩ := ugate_back (rot_descOK r t) (inverse_rot r t) (rot_build h t) (prot_inverse_fix p t) hL hn
    (by rw [rot_qubits]; exact hq) ψ reg k k'
  have hb := rot_bounds h hn hq
  refine ⟨ψ', ?_, ?_⟩
  · unfold PRot.RunsOn; rw [rot_update hb]; exact h1
  · unfold PRot.RunsOn; rw [rot_update (by rw [prot_inverse_operands]; exact hb)]; exact h2

/-- lines with an inverse -/
def _root_.Verif.Spec.Instr.Reversible : Instr → Prop
  | .gate d => InverseDesc d
  | .rot _ _ => True
  | _ => False

theorem gate_unreset (g : UGate) : Gate.unresetMask (.det g) = 0 := rfl

/-- a line and its inverse -/
theorem line_back {l : Line} {g g' : Item} (hb : l.instr.build = .ok g) (hok : l.instr.OK) (hr : l.instr.Reversible)
    (hi : Item.inverse g = .ok g') {L n : Nat} (hL : LanesOK L) (hn : n < 64) (hq : ∀ q ∈ l.instr.qubits, q < n)
    {θ : String → Option ℝ} (hk : ∀ k, l.instr.key? = some k → ∃ t, θ k = some t) {reg : List Bool}
    (hc : ∀ f, l.cond = some f → ∃ b, f reg = .ok b) (rnd rnd' : Nat → ℝ) (ψ : U64 → ℂ) (p p' : Nat) :
    ∃ ψ', lineStep L n rnd θ (l.cond, g) (⟨ψ, reg, p⟩, 0) (⟨ψ', reg, p⟩, 0) none ∧
      lineStep L n rnd' θ (l.cond, g') (⟨ψ', reg, p'⟩, 0) (⟨ψ, reg, p'⟩, 0) none := by
  have hcond : ∃ b, evalCond l.cond reg = .ok b := by
    unfold evalCond
    cases h : l.cond with
    | none => exact ⟨true, rfl⟩
    | some f => exact hc f h
  obtain ⟨b, hbc⟩ := hcond
  unfold lineStep
  dsimp only
  rw [hbc]
  cases b with
  | false => exact ⟨ψ, ⟨rfl, rfl⟩, rfl, rfl⟩
  | true =>
    dsimp only
    unfold Item.RunsOn
    dsimp only
    have h0 : ∀ m : U64, ¬ (0 &&& m ≠ 0) := fun m => by simp
    simp only [if_neg (h0 _)]
    obtain ⟨ins, cond⟩ := l
    cases ins with
    | gate d =>
      obtain ⟨u, hu, hb⟩ := bind_ok (show (do let g ← d.build; pure (Sum.inl (Gate.det g))) = .ok g from hb)
      cases hb
      obtain ⟨w, hw, hi⟩ := bind_ok (show (do let g' ← Gate.inverse (.det u); pure (Sum.inl g')) = .ok g' from hi)
      obtain ⟨u', hu', hw⟩ := bind_ok (show (do let g' ← u.inverse; pure (Gate.det g')) = .ok w from hw)
      cases hw
      cases hi
      obtain ⟨ψ', h1, h2⟩ := ugate_back hok hr hu hu' hL hn hq ψ reg p p'
      exact ⟨ψ', ⟨h1, by simp [Gate.unresetMask]⟩, h2, by simp [Gate.unresetMask]⟩
    | rot r key =>
      obtain ⟨u, hu, hb⟩ := bind_ok (show (do let p ← r.build; pure (Sum.inr (PGate.rot p, key))) = .ok g from hb)
      cases hb
      cases hi
      obtain ⟨t, ht⟩ := hk key rfl
      obtain ⟨ψ', h1, h2⟩ := prot_back hu hL hn hq t ψ reg p p'
      refine ⟨ψ', ?_, ?_⟩
      · dsimp only; rw [ht]; exact ⟨h1, trivial⟩
      · dsimp only; rw [ht]; exact ⟨h2, trivial⟩
    | choice => exact hr.elim
    | measure => exact hr.elim
    | pchoice => exact hr.elim

theorem item_inverse_mask {ins : Instr} {g g' : Item} (hb : ins.build = .ok g) (hok : ins.OK) (hr : ins.Reversible)
    (hi : Item.inverse g = .ok g') : Item.operandMask g' = Item.operandMask g ∧ ∀ p k, g' = .inr (p, k) → ins.key? = some k := by
  cases ins with
  | gate d =>
    obtain ⟨u, hu, hb⟩ := bind_ok (show (do let g ← d.build; pure (Sum.inl (Gate.det g))) = .ok g from hb)
    cases hb
    obtain ⟨w, hw, hi⟩ := bind_ok (show (do let g' ← Gate.inverse (.det u); pure (Sum.inl g')) = .ok g' from hi)
    obtain ⟨u', hu', hw⟩ := bind_ok (show (do let g' ← u.inverse; pure (Gate.det g')) = .ok w from hw)
    cases hw
    cases hi
    have := inverse_operands (build_valid hok hu).1 hu'
    refine ⟨?_, fun p k e => (by cases e)⟩
    show u'.operands.t ||| u'.operands.c = u.operands.t ||| u.operands.c
    rw [this]
  | rot r key =>
    obtain ⟨u, hu, hb⟩ := bind_ok (show (do let p ← r.build; pure (Sum.inr (PGate.rot p, key))) = .ok g from hb)
    cases hb
    cases hi
    refine ⟨?_, fun p k e => (by cases e; rfl)⟩
    show u.inverse.operands.t ||| u.inverse.operands.c = u.operands.t ||| u.operands.c
    rw [prot_inverse_operands]
  | choice => exact hr.elim
  | measure => exact hr.elim
  | pchoice => exact hr.elim

/-- the loop of `get_inverse` -/
theorem inverse_eq {gs : List Item} {cs : List (Option Condition)} (hl : cs.length = gs.length) {D : Circuit}
    (h : Circuit.inverse ⟨gs, cs⟩ = .ok D) : ∃ gs', gs.mapM Item.inverse = .ok gs' ∧ D = ⟨gs'.reverse, cs.reverse⟩ := by
  have key : ∀ m, m ≤ gs.length → ∀ D, (List.range m).foldlM (Circuit.inverseStep ⟨gs, cs⟩) .empty = .ok D →
      ∃ gs', (gs.drop (gs.length - m)).mapM Item.inverse = .ok gs' ∧ D = ⟨gs'.reverse, (cs.drop (cs.length - m)).reverse⟩ := by
    intro m
    induction m with
    | zero =>
      intro _ D h
      cases h
      exact ⟨[], by simp; rfl, by simp [Circuit.empty]⟩
    | succ m ih =>
      intro hm D h
      rw [List.range_succ, List.foldlM_append] at h
      obtain ⟨D1, h1, h⟩ := bind_ok h
      obtain ⟨gs1, e1, rfl⟩ := ih (by omega) D1 h1
      rw [List.foldlM_cons] at h
      obtain ⟨D2, h2, h⟩ := bind_ok h
      cases h
      unfold Circuit.inverseStep at h2
      dsimp only at h2
      have hlt : gs.length - 1 - m < gs.length := by omega
      rw [List.getElem?_eq_getElem hlt] at h2
      obtain ⟨g', hg', h2⟩ := bind_ok h2
      have hsub : sub64 (sub64 cs.length 1) m = cs.length - 1 - m := by
        unfold sub64
        rw [if_pos (show 1 ≤ cs.length by omega), if_pos (by omega)]
      have hlt' : cs.length - 1 - m < cs.length := by omega
      rw [hsub, List.getElem?_eq_getElem hlt'] at h2
      cases h2
      have d1 : gs.drop (gs.length - (m + 1)) = gs[gs.length - 1 - m] :: gs.drop (gs.length - m) := by
        rw [show gs.length - (m + 1) = gs.length - 1 - m by omega, List.drop_eq_getElem_cons hlt]
        congr 2; omega
      have d2 : cs.drop (cs.length - (m + 1)) = cs[cs.length - 1 - m] :: cs.drop (cs.length - m) := by
        rw [show cs.length - (m + 1) = cs.length - 1 - m by omega, List.drop_eq_getElem_cons hlt']
        congr 2; omega
      refine ⟨g' :: gs1, ?_, ?_⟩
      · rw [d1, List.mapM_cons, hg', ok_bind, e1]; rfl
      · rw [d2]; simp
  obtain ⟨gs', h1, h2⟩ := key gs.length le_rfl D h
  simp only [Nat.sub_self, List.drop_zero] at h1
  rw [hl, Nat.sub_self, List.drop_zero] at h2
  exact ⟨gs', h1, h2⟩

theorem seqRun_append' {ι C : Type} {S : ι → C → C → Option Fault → Prop} {is js : List ι} {c c1 c2 : C} {f : Option Fault}
    (h1 : SeqRun S is c c1 none) (h2 : SeqRun S js c1 c2 f) : SeqRun S (is ++ js) c c2 f := by
  generalize hg : (none : Option Fault) = g at h1
  induction h1 with
  | nil c => exact h2
  | cons i is c c1' c2' g h _ ih => exact .cons _ _ _ _ _ _ h (ih h2 hg)
  | stop i is c c1' e h => cases hg

theorem lines_back {ls : List Line} {gs gs' : List Item} (hb : ls.mapM (fun l => l.instr.build) = .ok gs)
    (hi : gs.mapM Item.inverse = .ok gs') (hok : ∀ l ∈ ls, l.instr.OK) (hr : ∀ l ∈ ls, l.instr.Reversible)
    {L n : Nat} (hL : LanesOK L) (hn : n < 64) (hq : ∀ l ∈ ls, ∀ q ∈ l.instr.qubits, q < n) {θ : String → Option ℝ}
    (hk : ∀ l ∈ ls, ∀ k, l.instr.key? = some k → ∃ t, θ k = some t) {reg : List Bool}
    (hc : ∀ l ∈ ls, ∀ f, l.cond = some f → ∃ b, f reg = .ok b) (rnd rnd' : Nat → ℝ) (ψ : U64 → ℂ) :
    ∃ ψ', SeqRun (lineStep L n rnd θ) ((ls.map (·.cond)).zip gs) (⟨ψ, reg, 0⟩, 0) (⟨ψ', reg, 0⟩, 0) none ∧
      SeqRun (lineStep L n rnd' θ) (((ls.map (·.cond)).zip gs').reverse) (⟨ψ', reg, 0⟩, 0) (⟨ψ, reg, 0⟩, 0) none := by
  induction ls generalizing gs gs' ψ with
  | nil => cases hb; cases hi; exact ⟨ψ, .nil _, .nil _⟩
  | cons l ls ih =>
    rw [List.mapM_cons] at hb
    obtain ⟨g, hg, hb⟩ := bind_ok hb
    obtain ⟨gr, hgr, hb⟩ := bind_ok hb
    cases hb
    rw [List.mapM_cons] at hi
    obtain ⟨g', hg', hi⟩ := bind_ok hi
    obtain ⟨gr', hgr', hi⟩ := bind_ok hi
    cases hi
    obtain ⟨ψ1, h1, h2⟩ := line_back hg (hok l List.mem_cons_self) (hr l List.mem_cons_self) hg' hL hn (hq l List.mem_cons_self)
      (hk l List.mem_cons_self) (hc l List.mem_cons_self) rnd rnd' ψ 0 0
    obtain ⟨ψ2, h3, h4⟩ := ih hgr hgr' (fun l hl => hok l (List.mem_cons_of_mem _ hl)) (fun l hl => hr l (List.mem_cons_of_mem _ hl))
      (fun l hl => hq l (List.mem_cons_of_mem _ hl)) (fun l hl => hk l (List.mem_cons_of_mem _ hl))
      (fun l hl => hc l (List.mem_cons_of_mem _ hl)) ψ1
    refine ⟨ψ2, ?_, ?_⟩
    · rw [List.map_cons, List.zip_cons_cons]
      exact .cons _ _ _ _ _ _ h1 h3
    · rw [List.map_cons, List.zip_cons_cons, List.reverse_cons]
      exact seqRun_append' h4 (.cons _ _ _ _ _ _ h2 (.nil _))

theorem inverse_mem {ls : List Line} {gs gs' : List Item} (hb : ls.mapM (fun l => l.instr.build) = .ok gs)
    (hi : gs.mapM Item.inverse = .ok gs') {g' : Item} (hg : g' ∈ gs') :
    ∃ l ∈ ls, ∃ g, l.instr.build = .ok g ∧ Item.inverse g = .ok g' := by
  induction ls generalizing gs gs' with
  | nil => cases hb; cases hi; simp at hg
  | cons l ls ih =>
    rw [List.mapM_cons] at hb
    obtain ⟨g, hg0, hb⟩ := bind_ok hb
    obtain ⟨gr, hgr, hb⟩ := bind_ok hb
    cases hb
    rw [List.mapM_cons] at hi
    obtain ⟨g1, hg1, hi⟩ := bind_ok hi
    obtain ⟨gr', hgr', hi⟩ := bind_ok hi
    cases hi
    rcases List.mem_cons.1 hg with rfl | hg
    · exact ⟨l, List.mem_cons_self, g, hg0, hg1⟩
    · obtain ⟨l', hl', h⟩ := ih hgr hgr' hg
      exact ⟨l', List.mem_cons_of_mem _ hl', h⟩

theorem inverse_check {ls : List Line} {gs gs' : List Item} (hb : ls.mapM (fun l => l.instr.build) = .ok gs)
    (hi : gs.mapM Item.inverse = .ok gs') (hok : ∀ l ∈ ls, l.instr.OK) (hr : ∀ l ∈ ls, l.instr.Reversible)
    {n : Nat} (hq : ∀ l ∈ ls, ∀ q ∈ l.instr.qubits, q < n) {θ : String → Option ℝ}
    (hk : ∀ l ∈ ls, ∀ k, l.instr.key? = some k → ∃ t, θ k = some t) (cs : List (Option Condition)) :
    Circuit.check ⟨gs'.reverse, cs⟩ n θ = .ok () := by
  unfold Circuit.check Circuit.checkQubits
  rw [if_neg, ok_bind, checkKeys_iff.1]
  · intro p k hm
    obtain ⟨l, hl, g, h1, h2⟩ := inverse_mem hb hi (List.mem_reverse.1 hm)
    obtain ⟨t, ht⟩ := hk l hl k ((item_inverse_mask h1 (hok l hl) (hr l hl) h2).2 p k rfl)
    rw [ht]; simp
  · rw [gt_iff_lt, not_lt]
    unfold Circuit.requiredQubits
    rw [bitWidth_le_iff]
    intro i hi'
    rw [foldl_or_bit, zero_bit] at hi'
    rcases hi' with h | ⟨g', hg', hbit⟩
    · simp at h
    · obtain ⟨l, hl, g, h1, h2⟩ := inverse_mem hb hi (List.mem_reverse.1 hg')
      rw [(item_inverse_mask h1 (hok l hl) (hr l hl) h2).1] at hbit
      exact hq l hl i ((item_mask h1 (hok l hl) i).1 hbit)

end Verif.Proofs
