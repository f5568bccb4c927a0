import Verif.Proofs.CircuitInverse

/-! # Proofs about inverses of random choices -/

namespace Verif.Proofs
open Verif Verif.Spec Verif.Model Verif.Props
attribute [-simp] BitVec.getLsbD_eq_getElem

/-- lines with an inverse, among them random choices between invertible gates -/
def _root_.Verif.Spec.Instr.Undoable : Instr → Prop
  | .gate d => InverseDesc d
  | .choice _ ds => ∀ d ∈ ds, InverseDesc d
  | .rot _ _ => True
  | .pchoice _ ls _ => ∀ l ∈ ls, InverseDesc (l.at 0)
  | .measure _ _ _ => False

/-- the same draw selects corresponding entries -/
theorem table_undo {G : Type} {t t' : ProbTable G} {gs : List G} (ht : TableOK t)
    (h : mkProbTable (t.dist.map some) (gs.map Component.leaf) = .ok t') {r : ℝ} (hr : 0 ≤ r) :
    ∃ k, ∃ (hk : k < t.gates.length) (hk' : k < gs.length), t.select r = .ok t.gates[k] ∧ t'.select r = .ok gs[k] := by
  obtain ⟨ht', hd, rfl⟩ := mkProbTable_leaf h
  obtain ⟨k, hk, h1, h2⟩ := select_total ht hr
  have hl : t'.gates.length = t.gates.length := by rw [← ht'.len, hd, ht.len]
  exact ⟨k, hk, by omega, select_spec ht hk h1 h2, select_spec ht' (by omega) (by rw [hd]; exact h1) (by rw [hd, hl]; exact h2)⟩

theorem leaf_undo {l : LeafDesc} {u u' : PLeaf} (hok : l.OK) (hi : InverseDesc (l.at 0)) (h : leafOf l = .ok u) (h' : u.inverse = .ok u')
    {L n : Nat} (hL : LanesOK L) (hn : n < 64) (hq : ∀ q ∈ qubitsOf (l.at 0), q < n) (t : ℝ) (ψ : U64 → ℂ) (reg : List Bool) (p p' : Nat) :
    ∃ ψ', u.RunsOn L n t ⟨ψ, reg, p⟩ ⟨ψ', reg, p⟩ none ∧ u'.RunsOn L n t ⟨ψ', reg, p'⟩ ⟨ψ, reg, p'⟩ none := by
  cases l with
  | fixed d =>
    obtain ⟨g, hg, h⟩ := bind_ok (show (do let g ← d.build; pure (PLeaf.fixed g)) = .ok u from h)
    cases h
    obtain ⟨g', hg', h'⟩ := bind_ok (show (do let g' ← g.inverse; pure (PLeaf.fixed g')) = .ok u' from h')
    cases h'
    exact ugate_back hok hi hg hg' hL hn hq ψ reg p p'
  | rot r =>
    obtain ⟨g, hg, h⟩ := bind_ok (show (do let p ← r.build; pure (PLeaf.rot p)) = .ok u from h)
    cases h
    cases h'
    exact prot_back hg hL hn hq t ψ reg p p'

theorem leaf_inverse_mask {l : LeafDesc} {u u' : PLeaf} (hok : l.OK) (h : leafOf l = .ok u) (h' : u.inverse = .ok u') :
    u'.operandMask = u.operandMask := by
  cases l with
  | fixed d =>
    obtain ⟨g, hg, h⟩ := bind_ok (show (do let g ← d.build; pure (PLeaf.fixed g)) = .ok u from h)
    cases h
    obtain ⟨g', hg', h'⟩ := bind_ok (show (do let g' ← g.inverse; pure (PLeaf.fixed g')) = .ok u' from h')
    cases h'
    show g'.operands.t ||| g'.operands.c = g.operands.t ||| g.operands.c
    rw [inverse_operands (build_valid hok hg).1 hg']
  | rot r =>
    obtain ⟨g, hg, h⟩ := bind_ok (show (do let p ← r.build; pure (PLeaf.rot p)) = .ok u from h)
    cases h
    cases h'
    show g.inverse.operands.t ||| g.inverse.operands.c = g.operands.t ||| g.operands.c
    rw [prot_inverse_operands]

/-- the objects of a random choice and of its inverse -/
theorem choice_parts {ps : List ℝ} {ds : List GateDesc} {g g' : Item} (hb : (Instr.choice ps ds).build = .ok g)
    (hi : Item.inverse g = .ok g') : ∃ t t' gs', g = .inl (.prob t) ∧ g' = .inl (.prob t') ∧ TableOK t ∧
      ds.mapM GateDesc.build = .ok t.gates ∧ t.gates.mapM UGate.inverse = .ok gs' ∧
      mkProbTable (t.dist.map some) (gs'.map .leaf) = .ok t' := by
  obtain ⟨gs, hgs, hb⟩ := bind_ok (show (do
    let gs ← ds.mapM GateDesc.build
    let g ← mkProbabilistic (ps.map some) (gs.map .det)
    pure (Sum.inl g)) = .ok g from hb)
  obtain ⟨w, hw, hb⟩ := bind_ok hb
  cases hb
  obtain ⟨t, ht, hw⟩ := bind_ok (show (do
    let t ← mkProbTable (ps.map some) ((gs.map Gate.det).map Gate.component)
    pure (Gate.prob t)) = .ok w from hw)
  cases hw
  rw [List.map_map, show Gate.component ∘ Gate.det = Component.leaf from rfl] at ht
  obtain ⟨hok, -, rfl⟩ := mkProbTable_leaf ht
  obtain ⟨w', hw', hi⟩ := bind_ok (show (do let g' ← Gate.inverse (.prob t); pure (Sum.inl g')) = .ok g' from hi)
  cases hi
  obtain ⟨t', ht', hw'⟩ := bind_ok (show (do let t' ← t.inverse; pure (Gate.prob t')) = .ok w' from hw')
  cases hw'
  obtain ⟨gs', h1, h2⟩ := bind_ok (show (do
    let gs ← t.gates.mapM UGate.inverse
    mkProbTable (t.dist.map some) (gs.map .leaf)) = .ok t' from ht')
  exact ⟨t, t', gs', rfl, rfl, hok, hgs, h1, h2⟩

theorem pchoice_parts {ps : List ℝ} {ls : List LeafDesc} {key : String} {g g' : Item} (hb : (Instr.pchoice ps ls key).build = .ok g)
    (hi : Item.inverse g = .ok g') : ∃ t t' gs', g = .inr (.prob t, key) ∧ g' = .inr (.prob t', key) ∧ TableOK t ∧
      ls.mapM leafOf = .ok t.gates ∧ t.gates.mapM PLeaf.inverse = .ok gs' ∧
      mkProbTable (t.dist.map some) (gs'.map .leaf) = .ok t' := by
  obtain ⟨gs, hgs, hb⟩ := bind_ok (show (do
    let gs ← ls.mapM LeafDesc.build
    let p ← mkParamProbabilistic (ps.map some) gs
    pure (Sum.inr (p, key))) = .ok g from hb)
  obtain ⟨w, hw, hb⟩ := bind_ok hb
  cases hb
  obtain ⟨t, ht, hw⟩ := bind_ok (show (do
    let t ← mkProbTable (ps.map some) (gs.map eitherComponent)
    pure (PGate.prob t)) = .ok w from hw)
  cases hw
  obtain ⟨us, hus, e⟩ := leaves_build hgs
  rw [e] at ht
  obtain ⟨hok, -, rfl⟩ := mkProbTable_leaf ht
  obtain ⟨w', hw', hi⟩ := bind_ok (show (do let p' ← PGate.inverse (.prob t); pure (Sum.inr (p', key))) = .ok g' from hi)
  cases hi
  obtain ⟨gs', h1, h2⟩ := bind_ok (show (do
    let gs ← t.gates.mapM PLeaf.inverse
    let t' ← mkProbTable (t.dist.map some) (gs.map .leaf)
    pure (PGate.prob t')) = .ok w' from hw')
  obtain ⟨t', ht', h2⟩ := bind_ok h2
  cases h2
  exact ⟨t, t', gs', rfl, rfl, hok, hus, h1, ht'⟩

/-- the entry at a position of a list built step by step -/
theorem mapM_at {α β : Type} {f : α → Res β} {as : List α} {bs : List β} (h : as.mapM f = .ok bs) {k : Nat} (hk : k < bs.length) :
    ∃ ha : k < as.length, f as[k] = .ok bs[k] := by
  obtain ⟨hl, hget⟩ := mapM_get f h
  have ha : k < as.length := by omega
  obtain ⟨b, hb, hf⟩ := hget k _ (List.getElem?_eq_getElem ha)
  rw [List.getElem?_eq_getElem hk] at hb
  obtain rfl := Option.some.inj hb
  exact ⟨ha, hf⟩

theorem mapM_masks {G : Type} {f : G → Res G} {as bs : List G} (h : as.mapM f = .ok bs) (μ : G → U64)
    (hμ : ∀ k (ha : k < as.length) (hb : k < bs.length), f as[k] = .ok bs[k] → μ bs[k] = μ as[k]) :
    bs.foldl (fun m g => m ||| μ g) 0 = as.foldl (fun m g => m ||| μ g) 0 := by
  have e : bs.map μ = as.map μ := by
    have hl := (mapM_get f h).1
    apply List.ext_getElem (by simp [hl])
    intro k h1 h2
    simp only [List.length_map] at h1 h2
    simp only [List.getElem_map]
    exact hμ k h2 h1 (mapM_at h h1).2
  have := congrArg (List.foldl (fun m x : U64 => m ||| x) 0) e
  rwa [List.foldl_map, List.foldl_map] at this

theorem item_undo_mask {ins : Instr} {g g' : Item} (hb : ins.build = .ok g) (hok : ins.OK) (hr : ins.Undoable)
    (hi : Item.inverse g = .ok g') : Item.operandMask g' = Item.operandMask g ∧ ∀ p k, g' = .inr (p, k) → ins.key? = some k := by
  cases ins with
  | gate d => exact item_inverse_mask hb hok hr hi
  | rot r key => exact item_inverse_mask hb hok hr hi
  | measure => exact hr.elim
  | choice ps ds =>
    obtain ⟨t, t', gs', rfl, rfl, ht, hgs, hinv, ht'⟩ := choice_parts hb hi
    obtain ⟨-, -, rfl⟩ := mkProbTable_leaf ht'
    refine ⟨?_, fun p k e => (by cases e)⟩
    show t'.gates.foldl (fun m g => m ||| (g.operands.t ||| g.operands.c)) 0 = t.gates.foldl (fun m g => m ||| (g.operands.t ||| g.operands.c)) 0
    refine mapM_masks hinv (fun g => g.operands.t ||| g.operands.c) fun k ha _ he => ?_
    obtain ⟨hd, hbk⟩ := mapM_at hgs ha
    rw [inverse_operands (build_valid (hok _ (List.getElem_mem hd)) hbk).1 he]
  | pchoice ps ls key =>
    obtain ⟨t, t', gs', rfl, rfl, ht, hgs, hinv, ht'⟩ := pchoice_parts hb hi
    obtain ⟨-, -, rfl⟩ := mkProbTable_leaf ht'
    refine ⟨?_, fun p k e => (by cases e; rfl)⟩
    show t'.gates.foldl (fun m g => m ||| g.operandMask) 0 = t.gates.foldl (fun m g => m ||| g.operandMask) 0
    refine mapM_masks hinv PLeaf.operandMask fun k ha _ he => ?_
    obtain ⟨hd, hbk⟩ := mapM_at hgs ha
    exact leaf_inverse_mask (hok _ (List.getElem_mem hd)) hbk he

theorem leaf_unique {L n : Nat} {t : ℝ} {g : PLeaf} {c c1 c2 : Context} {f1 f2 : Option Fault}
    (h1 : g.RunsOn L n t c c1 f1) (h2 : g.RunsOn L n t c c2 f2) : c1 = c2 ∧ f1 = f2 := by
  cases g with
  | fixed u => exact UGate.runsOn_unique (g := u) h1 h2
  | rot u => exact PRot.runsOn_unique (g := u) h1 h2

theorem lineStep_unique {L n : Nat} {rnd : Nat → ℝ} {θ : String → Option ℝ} {p : Option Condition × Item} {s s1 s2 : Context × U64}
    {f1 f2 : Option Fault} (h1 : lineStep L n rnd θ p s s1 f1) (h2 : lineStep L n rnd θ p s s2 f2) : s1 = s2 ∧ f1 = f2 := by
  unfold lineStep at h1 h2
  cases he : evalCond p.1 s.1.reg with
  | error e => rw [he] at h1 h2; exact ⟨h1.1.trans h2.1.symm, h1.2.trans h2.2.symm⟩
  | ok b =>
    rw [he] at h1 h2
    cases b with
    | false => exact ⟨h1.1.trans h2.1.symm, h1.2.trans h2.2.symm⟩
    | true => exact Item.runsOn_unique h1 h2

/-- a line and its inverse, with the same draw -/
theorem line_undo {l : Line} {g g' : Item} (hb : l.instr.build = .ok g) (hok : l.instr.OK) (hr : l.instr.Undoable)
    (hi : Item.inverse g = .ok g') {L n : Nat} (hL : LanesOK L) (hn : n < 64) (hq : ∀ q ∈ l.instr.qubits, q < n)
    {θ : String → Option ℝ} (hk : ∀ k, l.instr.key? = some k → ∃ t, θ k = some t) {reg : List Bool}
    (hc : ∀ f, l.cond = some f → ∃ b, f reg = .ok b) {rnd : Nat → ℝ} (h0 : ∀ i, 0 ≤ rnd i) (ψ : U64 → ℂ) (p : Nat) :
    ∃ ψ' d, d ≤ 1 ∧ lineStep L n rnd θ (l.cond, g) (⟨ψ, reg, p⟩, 0) (⟨ψ', reg, p + d⟩, 0) none ∧
      ∀ rnd' : Nat → ℝ, ∀ p', (d = 1 → rnd' p' = rnd p) →
        lineStep L n rnd' θ (l.cond, g') (⟨ψ', reg, p'⟩, 0) (⟨ψ, reg, p' + d⟩, 0) none := by
  by_cases hrev : l.instr.Reversible
  · obtain ⟨ψ', h1, -⟩ := line_back hb hok hrev hi hL hn hq hk hc rnd rnd ψ p p
    refine ⟨ψ', 0, by omega, h1, fun rnd' p' _ => ?_⟩
    obtain ⟨ψ'', h3, h4⟩ := line_back hb hok hrev hi hL hn hq hk hc rnd rnd' ψ p p'
    have e := (lineStep_unique h1 h3).1
    simp only [Prod.mk.injEq, Context.mk.injEq] at e
    rw [e.1.1]
    exact h4
  have hcond : ∃ b, evalCond l.cond reg = .ok b := by
    unfold evalCond
    cases h : l.cond with
    | none => exact ⟨true, rfl⟩
    | some f => exact hc f h
  obtain ⟨b, hbc⟩ := hcond
  unfold lineStep
  dsimp only
  rw [hbc]
  cases b with
  | false => exact ⟨ψ, 0, by omega, ⟨rfl, rfl⟩, fun _ _ _ => ⟨rfl, rfl⟩⟩
  | true =>
    dsimp only
    unfold Item.RunsOn
    dsimp only
    have hz : ∀ m : U64, ¬ (0 &&& m ≠ 0) := fun m => by simp
    simp only [if_neg (hz _)]
    obtain ⟨ins, cond⟩ := l
    cases ins with
    | gate d => exact (hrev hr).elim
    | rot => exact (hrev trivial).elim
    | measure => exact hr.elim
    | choice ps ds =>
      obtain ⟨t, t', gs', rfl, rfl, ht, hgs, hinv, ht'⟩ := choice_parts hb hi
      obtain ⟨k, hk1, hk2, hs, hs'⟩ := table_undo ht ht' (h0 p)
      obtain ⟨ha, hbk⟩ := mapM_at hgs hk1
      have hik := (mapM_at hinv hk2).2
      have hmem := List.getElem_mem ha
      have hback := fun p p' => ugate_back (hok _ hmem) (hr _ hmem) hbk hik hL hn
        (fun q hh => hq q (List.mem_flatMap.2 ⟨_, hmem, hh⟩)) ψ reg p p'
      obtain ⟨ψ', h1, -⟩ := hback (p + 1) (p + 1)
      refine ⟨ψ', 1, le_rfl, ⟨?_, by simp [Gate.unresetMask]⟩, fun rnd' p' he => ⟨?_, by simp [Gate.unresetMask]⟩⟩
      · show Gate.RunsOn L n rnd (.prob t) _ _ none
        unfold Gate.RunsOn
        dsimp only
        rw [hs]
        exact h1
      · show Gate.RunsOn L n rnd' (.prob t') _ _ none
        unfold Gate.RunsOn
        dsimp only
        rw [he rfl, hs']
        obtain ⟨ψ'', h3, h4⟩ := hback (p + 1) (p' + 1)
        have e := (UGate.runsOn_unique h1 h3).1
        rw [Context.mk.injEq] at e
        rw [e.1]
        exact h4
    | pchoice ps ls key =>
      obtain ⟨t, t', gs', rfl, rfl, ht, hgs, hinv, ht'⟩ := pchoice_parts hb hi
      obtain ⟨v, hv⟩ := hk key rfl
      obtain ⟨k, hk1, hk2, hs, hs'⟩ := table_undo ht ht' (h0 p)
      obtain ⟨ha, hbk⟩ := mapM_at hgs hk1
      have hik := (mapM_at hinv hk2).2
      have hmem := List.getElem_mem ha
      have hback := fun p p' => leaf_undo (hok _ hmem) (hr _ hmem) hbk hik hL hn
        (fun q hh => hq q (List.mem_flatMap.2 ⟨_, hmem, hh⟩)) v ψ reg p p'
      obtain ⟨ψ', h1, -⟩ := hback (p + 1) (p + 1)
      refine ⟨ψ', 1, le_rfl, ?_, fun rnd' p' he => ?_⟩
      · dsimp only
        rw [hv]
        refine ⟨?_, trivial⟩
        unfold PGate.RunsOn
        dsimp only
        rw [hs]
        exact h1
      · dsimp only
        rw [hv]
        refine ⟨?_, trivial⟩
        unfold PGate.RunsOn
        dsimp only
        rw [he rfl, hs']
        obtain ⟨ψ'', h3, h4⟩ := hback (p + 1) (p' + 1)
        have e := (leaf_unique h1 h3).1
        rw [Context.mk.injEq] at e
        rw [e.1]
        exact h4

theorem lines_undo {ls : List Line} {gs gs' : List Item} (hb : ls.mapM (fun l => l.instr.build) = .ok gs)
    (hi : gs.mapM Item.inverse = .ok gs') (hok : ∀ l ∈ ls, l.instr.OK) (hr : ∀ l ∈ ls, l.instr.Undoable)
    {L n : Nat} (hL : LanesOK L) (hn : n < 64) (hq : ∀ l ∈ ls, ∀ q ∈ l.instr.qubits, q < n) {θ : String → Option ℝ}
    (hk : ∀ l ∈ ls, ∀ k, l.instr.key? = some k → ∃ t, θ k = some t) {reg : List Bool}
    (hc : ∀ l ∈ ls, ∀ f, l.cond = some f → ∃ b, f reg = .ok b) {rnd : Nat → ℝ} (h0 : ∀ i, 0 ≤ rnd i) (ψ : U64 → ℂ) (p : Nat) :
    ∃ ψ' K, SeqRun (lineStep L n rnd θ) ((ls.map (·.cond)).zip gs) (⟨ψ, reg, p⟩, 0) (⟨ψ', reg, p + K⟩, 0) none ∧
      ∀ rnd' : Nat → ℝ, ∀ p', (∀ i < K, rnd' (p' + i) = rnd (p + K - 1 - i)) →
        SeqRun (lineStep L n rnd' θ) (((ls.map (·.cond)).zip gs').reverse) (⟨ψ', reg, p'⟩, 0) (⟨ψ, reg, p' + K⟩, 0) none := by
  induction ls generalizing gs gs' ψ p with
  | nil => cases hb; cases hi; exact ⟨ψ, 0, .nil _, fun _ _ _ => .nil _⟩
  | cons l ls ih =>
    rw [List.mapM_cons] at hb
    obtain ⟨g, hg, hb⟩ := bind_ok hb
    obtain ⟨gr, hgr, hb⟩ := bind_ok hb
    cases hb
    rw [List.mapM_cons] at hi
    obtain ⟨g', hg', hi⟩ := bind_ok hi
    obtain ⟨gr', hgr', hi⟩ := bind_ok hi
    cases hi
    obtain ⟨ψ1, d, hd, h1, h2⟩ := line_undo hg (hok l List.mem_cons_self) (hr l List.mem_cons_self) hg' hL hn (hq l List.mem_cons_self)
      (hk l List.mem_cons_self) (hc l List.mem_cons_self) h0 ψ p
    obtain ⟨ψ2, K, h3, h4⟩ := ih hgr hgr' (fun l hl => hok l (List.mem_cons_of_mem _ hl)) (fun l hl => hr l (List.mem_cons_of_mem _ hl))
      (fun l hl => hq l (List.mem_cons_of_mem _ hl)) (fun l hl => hk l (List.mem_cons_of_mem _ hl))
      (fun l hl => hc l (List.mem_cons_of_mem _ hl)) ψ1 (p + d)
    refine ⟨ψ2, d + K, ?_, fun rnd' p' hrr => ?_⟩
    · rw [List.map_cons, List.zip_cons_cons, ← Nat.add_assoc]
      exact .cons _ _ _ _ _ _ h1 h3
    · rw [List.map_cons, List.zip_cons_cons, List.reverse_cons]
      have a1 := h4 rnd' p' fun i hi => by
        rw [hrr i (by omega)]; congr 1; omega
      have a2 := h2 rnd' (p' + K) fun h => by
        rw [hrr K (by omega)]; congr 1; omega
      rw [Nat.add_assoc, Nat.add_comm K d] at a2
      exact seqRun_append' a1 (.cons _ _ _ _ _ _ a2 (.nil _))

theorem undo_check {ls : List Line} {gs gs' : List Item} (hb : ls.mapM (fun l => l.instr.build) = .ok gs)
    (hi : gs.mapM Item.inverse = .ok gs') (hok : ∀ l ∈ ls, l.instr.OK) (hr : ∀ l ∈ ls, l.instr.Undoable)
    {n : Nat} (hq : ∀ l ∈ ls, ∀ q ∈ l.instr.qubits, q < n) {θ : String → Option ℝ}
    (hk : ∀ l ∈ ls, ∀ k, l.instr.key? = some k → ∃ t, θ k = some t) (cs : List (Option Condition)) :
    Circuit.check ⟨gs'.reverse, cs⟩ n θ = .ok () := by
  unfold Circuit.check Circuit.checkQubits
  rw [if_neg, ok_bind, checkKeys_iff.1]
  · intro p k hm
    obtain ⟨l, hl, g, h1, h2⟩ := inverse_mem hb hi (List.mem_reverse.1 hm)
    obtain ⟨t, ht⟩ := hk l hl k ((item_undo_mask h1 (hok l hl) (hr l hl) h2).2 p k rfl)
    rw [ht]; simp
  · rw [gt_iff_lt, not_lt]
    unfold Circuit.requiredQubits
    rw [bitWidth_le_iff]
    intro i hi'
    rw [foldl_or_bit, zero_bit] at hi'
    rcases hi' with h | ⟨g', hg', hbit⟩
    · simp at h
    · obtain ⟨l, hl, g, h1, h2⟩ := inverse_mem hb hi (List.mem_reverse.1 hg')
      rw [(item_undo_mask h1 (hok l hl) (hr l hl) h2).1] at hbit
      exact hq l hl i ((item_mask h1 (hok l hl) i).1 hbit)

end Verif.Proofs
