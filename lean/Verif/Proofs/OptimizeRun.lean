import Verif.Proofs.Optimize

/-! # What `Circuit::optimize` returns -/

namespace Verif.Proofs
open Verif Verif.Spec Verif.Model
attribute [-simp] BitVec.getLsbD_eq_getElem

variable {n N : Nat} {θ : String → Option ℝ} {all : List Line}

/-- a new gate is put into the pool beside gates on other qubits -/
theorem OptInv.waitNew {pre : List Line} {s s' : OptState} {acts : List Act} {live : List (Nat × UGate)} {l : Line}
    (h : OptInv n N θ all pre s acts live) {g : UGate} (hv : Valid g) (hr : InReg N g) (hu : ∃ q, UGate.uses g q)
    (hk : Measures all → KeepsNorm n g) (hap : ∀ p ∈ live, Apart p.2 g)
    (hle : Le n θ ((pre ++ [l]).map .line) (acts ++ gatesOf live ++ [.gate g] ++ [.phase s.phase])) (hs : s.wait g = .ok s') :
    OptInv n N θ all (pre ++ [l]) s' acts (live ++ [(s.pool.length, g)]) ∧ s'.log = s.log := by
  obtain ⟨w, hw, hs⟩ := bind_ok (show (do
    let w ← markAll s.waiting g.operandQubitList (some s.pool.length)
    pure { s with waiting := w, pool := s.pool ++ [g] }) = .ok s' from hs)
  cases hs
  refine ⟨⟨h.len, h.real, ?_, ?_, ?_⟩, rfl⟩
  · rw [gatesOf_append, ← List.append_assoc acts]
    exact hle
  · exact h.waits.wait (dropped := []) (rest := live) (List.Perm.refl _) (fun p hp => by simp at hp) hap hv hr hu hw
  · intro hm p hp
    rcases List.mem_append.1 hp with hp | hp
    · exact h.norm hm p hp
    · rw [List.mem_singleton.1 hp]; exact hk hm

theorem le_acts_gate {pre : List Line} {s : OptState} {acts : List Act} {live : List (Nat × UGate)}
    (h : OptInv n N θ all pre s acts live) (hn : n < 64) {d : GateDesc} {g : UGate} (hg : d.build = .ok g)
    (hok : DescOK d) (hq : ∀ q ∈ qubitsOf d, q < n) :
    Le n θ ((pre ++ [(⟨.gate d, none⟩ : Line)]).map .line) (acts ++ gatesOf live ++ [.gate g] ++ [.phase s.phase]) :=
  (le_acts_line h hn (l := ⟨.gate d, none⟩) (it := .inl (.det g)) (by
    show (do let g ← d.build; pure (Sum.inl (Gate.det g))) = _
    rw [hg]; rfl) hok hq).trans (Le.right _ (Le.left _ (le_line_gate hok hg)))

theorem OptInv.mergeable {pre : List Line} {s s' : OptState} {acts : List Act} {live : List (Nat × UGate)}
    (h : OptInv n N θ all pre s acts live) (hN : N ≤ n) (hn : n < 64) {d : GateDesc} {g : UGate} (hg : d.build = .ok g)
    (hok : DescOK d) (hq : ∀ q ∈ qubitsOf d, q < N) (hu : ∃ q, UGate.uses g q) (hk : Measures all → KeepsNorm n g) {mb : Nat}
    (hs : s.mergeable mb g = .ok s') (hgood : ∀ p ∈ s'.log, GoodMerge p) :
    ∃ acts' live', OptInv n N θ all (pre ++ [⟨.gate d, none⟩]) s' acts' live' := by
  have hv : Valid g := (build_valid hok hg).1
  have hr : InReg N g := fun q hq' => hq q ((build_mask hok hg q).1 hq')
  have hqn : ∀ q ∈ qubitsOf d, q < n := fun q h => lt_of_lt_of_le (hq q h) hN
  unfold OptState.mergeable at hs
  obtain ⟨is, his, hs⟩ := bind_ok hs
  obtain ⟨hnd, hmem⟩ := waitingIndices_spec his
  have hfree : ∀ p ∈ live, p.1 ∉ is → Apart p.2 g := by
    intro p hp hni q h1 h2
    exact hni ((hmem p.1).2 ⟨q, mem_itemList.2 h2, (h.waits.table q p.1).2 ⟨p.2, hp, h1⟩⟩)
  have hlive : ∀ i ∈ is, ∃ g, (i, g) ∈ live := fun i hi => by
    obtain ⟨q, -, hq⟩ := (hmem i).1 hi
    obtain ⟨g, hg, -⟩ := (h.waits.table q i).1 hq
    exact ⟨g, hg⟩
  split at hs
  · rename_i he
    subst he
    exact ⟨acts, live ++ [(s.pool.length, g)], (h.waitNew hv hr hu hk (fun p hp => hfree p hp (by simp)) (le_acts_gate h hn hg hok hqn) hs).1⟩
  · obtain ⟨b, -, hs⟩ := bind_ok hs
    split at hs
    · obtain ⟨r, hr', hs⟩ := bind_ok hs
      obtain ⟨w, hw, hs⟩ := bind_ok (show (do
        let w ← markAll r.1.waiting r.2.operandQubitList (some r.1.pool.length)
        pure { r.1 with waiting := w, pool := r.1.pool ++ [r.2] }) = .ok s' from hs)
      cases hs
      have hinit : MergeInv n N θ all (pre ++ [⟨.gate d, none⟩]) s s g g acts live [] live :=
        ⟨rfl, rfl, rfl, rfl, List.Perm.refl _, le_acts_gate h hn hg hok hqn, hv, hr, fun q h => h, fun p hp => by simp at hp,
          fun q h => .inl h, hk⟩
      obtain ⟨dropped, rest, hI, hrest⟩ := mergeAll_spec (a := (s, g)) h.waits h.norm hN hn hinit hnd hlive hr' hgood
      refine ⟨acts, rest ++ [(s.pool.length, r.2)], ?_, ?_, ?_, ?_, ?_⟩
      · show r.1.conds.length = r.1.gates.length
        rw [hI.conds, hI.gates]; exact h.len
      · show List.Forall₂ (Realises all N) acts (r.1.conds.zip r.1.gates)
        rw [hI.conds, hI.gates]; exact h.real
      · have := hI.le
        rw [gatesOf_append, ← List.append_assoc acts]
        exact this
      · show Waits N (rest ++ [(s.pool.length, r.2)]) (r.1.pool ++ [r.2]) w
        rw [hI.pool] at hw ⊢
        rw [hI.waiting] at hw
        refine h.waits.wait hI.perm hI.drops ?_ hI.valid hI.reg ?_ hw
        · intro p hp q h1 h2
          obtain ⟨hpl, hpi⟩ := hrest p hp
          rcases hI.from_ q h2 with h3 | ⟨x, hx, h3⟩
          · exact hfree p hpl hpi q h1 h3
          · have ha := (h.waits.perm hI.perm).apart
            rw [List.map_append, List.pairwise_append] at ha
            exact ha.2.2 x.2 (List.mem_map.2 ⟨x, hx, rfl⟩) p.2 (List.mem_map.2 ⟨p, hp, rfl⟩) q h3 h1
        · obtain ⟨q, hq⟩ := hu
          exact ⟨q, hI.keeps q hq⟩
      · intro hm p hp
        rcases List.mem_append.1 hp with hp | hp
        · exact h.norm hm p (hrest p hp).1
        · rw [List.mem_singleton.1 hp]; exact hI.norm hm
    · obtain ⟨s1, hs1, hs⟩ := bind_ok hs
      obtain ⟨acts1, live1, h1, h2, h3, h4⟩ := h.pushAll hN hnd hlive hs1
      exact ⟨acts1, live1 ++ [(s1.pool.length, g)], (h1.waitNew hv hr hu hk (fun p hp => hfree p (h2 p hp).1 (h2 p hp).2) (le_acts_gate h1 hn hg hok hqn) hs).1⟩

theorem step_cases {mb : Nat} {s s' : OptState} {c : Option Condition} {it : Item} (h : s.step mb c it = .ok s') :
    (c = none ∧ it = .inl (.det .ident) ∧ s' = s) ∨
    (∃ φ o, c = none ∧ it = .inl (.det (.globalPhase φ o)) ∧ o.c = 0 ∧ s' = { s with phase := s.phase + φ }) ∨
    (∃ u, c = none ∧ it = .inl (.det u) ∧ u ≠ .ident ∧ (∀ φ o, u = .globalPhase φ o → o.c ≠ 0) ∧ s.mergeable mb u = .ok s') ∨
    s.pushItem it c = .ok s' := by
  unfold OptState.step at h
  split at h
  · injection h with h
    exact .inl ⟨rfl, rfl, h.symm⟩
  · rename_i φ o
    split at h
    · rename_i hc
      injection h with h
      exact .inr (.inl ⟨φ, o, rfl, rfl, hc, h.symm⟩)
    · rename_i hc
      exact .inr (.inr (.inl ⟨_, rfl, rfl, by simp, fun φ' o' e => by cases e; exact hc, h⟩))
  · rename_i u h1 h2
    exact .inr (.inr (.inl ⟨u, rfl, rfl, fun e => h1 e, fun φ o e => absurd e (h2 φ o), h⟩))
  · exact .inr (.inr (.inr h))

theorem push_log {s s' : OptState} {it : Item} {c : Option Condition} (h : s.push it c = .ok s') : s'.log = s.log := by
  obtain ⟨w, -, h⟩ := bind_ok h
  cases h; rfl

theorem wait_log {s s' : OptState} {g : UGate} (h : s.wait g = .ok s') : s'.log = s.log := by
  obtain ⟨w, -, h⟩ := bind_ok h
  cases h; rfl

theorem pushAll_log {is : List Nat} {s s' : OptState} (h : s.pushAll is = .ok s') : s'.log = s.log := by
  induction is generalizing s with
  | nil => cases h; rfl
  | cons i is ih =>
    unfold OptState.pushAll at h
    rw [List.foldlM_cons] at h
    obtain ⟨s1, h1, h⟩ := bind_ok h
    obtain ⟨g, -, h1⟩ := bind_ok h1
    exact (ih h).trans (push_log h1)

theorem step_log {mb : Nat} {s s' : OptState} {c : Option Condition} {it : Item} (h : s.step mb c it = .ok s') : ∃ t, s'.log = s.log ++ t := by
  rcases step_cases h with ⟨-, -, rfl⟩ | ⟨φ, o, -, -, -, rfl⟩ | ⟨u, -, -, -, -, h⟩ | h
  · exact ⟨[], by simp⟩
  · exact ⟨[], by simp⟩
  · unfold OptState.mergeable at h
    obtain ⟨is, -, h⟩ := bind_ok h
    split at h
    · exact ⟨[], by rw [wait_log h]; simp⟩
    · obtain ⟨b, -, h⟩ := bind_ok h
      split at h
      · obtain ⟨r, hr, h⟩ := bind_ok h
        obtain ⟨t, ht⟩ := mergeAll_log hr
        exact ⟨t, (wait_log h).trans ht⟩
      · obtain ⟨s1, h1, h⟩ := bind_ok h
        exact ⟨[], by rw [wait_log h, pushAll_log h1]; simp⟩
  · unfold OptState.pushItem at h
    obtain ⟨is, -, h⟩ := bind_ok h
    obtain ⟨s1, h1, h⟩ := bind_ok h
    exact ⟨[], by rw [push_log h, pushAll_log h1]; simp⟩

/-- what is needed of the lines -/
structure OptHyp (n N : Nat) (all : List Line) : Prop where
  ok : ∀ l ∈ all, l.instr.OK
  qubits : ∀ l ∈ all, ∀ q ∈ l.instr.qubits, q < N
  tangible : ∀ d, (⟨.gate d, none⟩ : Line) ∈ all → qubitsOf d = [] → d = .ident ∨ ∃ φ cs vs, d = .globalPhase φ cs vs
  norm : Measures all → ∀ d g, (⟨.gate d, none⟩ : Line) ∈ all → d.build = .ok g → KeepsNorm n g

theorem OptInv.step {pre : List Line} {s s' : OptState} {acts : List Act} {live : List (Nat × UGate)}
    (h : OptInv n N θ all pre s acts live) (H : OptHyp n N all) (hN : N ≤ n) (hn : n < 64) {l : Line} (hl : l ∈ all) {it : Item}
    (hb : l.instr.build = .ok it) {mb : Nat} (hs : s.step mb l.cond it = .ok s') (hgood : ∀ p ∈ s'.log, GoodMerge p) :
    ∃ acts' live', OptInv n N θ all (pre ++ [l]) s' acts' live' := by
  have hok := H.ok l hl
  have hqN := H.qubits l hl
  have hqn : ∀ q ∈ l.instr.qubits, q < n := fun q h => lt_of_lt_of_le (hqN q h) hN
  have isGate : ∀ u, it = .inl (.det u) → ∃ d, l.instr = .gate d ∧ d.build = .ok u := by
    rintro u rfl
    obtain ⟨ins, cnd⟩ := l
    cases ins with
    | gate d =>
      obtain ⟨g, hg, hb⟩ := bind_ok (show (do let g ← d.build; pure (Sum.inl (Gate.det g))) = .ok _ from hb)
      cases hb
      exact ⟨d, rfl, hg⟩
    | choice ps ds =>
      obtain ⟨gs, hgs, hb⟩ := bind_ok (show (do
        let gs ← ds.mapM GateDesc.build
        let g ← mkProbabilistic (ps.map some) (gs.map .det)
        pure (Sum.inl g)) = .ok _ from hb)
      obtain ⟨g, hg, hb⟩ := bind_ok hb
      cases hb
      obtain ⟨t, ht, hg⟩ := bind_ok hg
      cases hg
    | measure q cbit reset =>
      obtain ⟨g, hg, hb⟩ := bind_ok (show (do let g ← mkMeas q cbit reset; pure (Sum.inl (Gate.meas g))) = .ok _ from hb)
      cases hb
    | rot r key =>
      obtain ⟨p, hp, hb⟩ := bind_ok (show (do let p ← r.build; pure (Sum.inr (PGate.rot p, key))) = .ok _ from hb)
      cases hb
    | pchoice ps ls key =>
      obtain ⟨gs, hgs, hb⟩ := bind_ok (show (do
        let gs ← ls.mapM LeafDesc.build
        let p ← mkParamProbabilistic (ps.map some) gs
        pure (Sum.inr (p, key))) = .ok _ from hb)
      obtain ⟨p, hpb, hb⟩ := bind_ok hb
      cases hb
  rcases step_cases hs with ⟨hc, hi, rfl⟩ | ⟨φ, o, hc, hi, ho, rfl⟩ | ⟨u, hc, hi, hne, hnp, hs2⟩ | hs
  · obtain ⟨d, hd, hg⟩ := isGate _ hi
    obtain ⟨ins, cnd⟩ := l
    dsimp only at hd hc
    subst hd hc
    refine ⟨acts, live, h.len, h.real, ?_, h.waits, h.norm⟩
    refine (le_acts_gate h hn hg hok hqn).trans ?_
    have := Le.right (n := n) (θ := θ) [.phase s'.phase] (Le.left (acts ++ gatesOf live) (le_ident (n := n) (θ := θ)))
    rw [List.append_nil] at this
    exact this
  · obtain ⟨d, hd, hg⟩ := isGate _ hi
    obtain ⟨ins, cnd⟩ := l
    dsimp only at hd hc
    subst hd hc
    have ht : o.t = 0 := by
      cases d with
      | globalPhase phase cs vs =>
        obtain ⟨o', ho', hg⟩ := bind_ok (show (do let o ← mkOperands [] cs vs; pure (UGate.globalPhase phase o)) = .ok _ from hg)
        cases hg
        obtain ⟨-, -, -, -, -, -, -, tb, -, -⟩ := mkOperands_ok ho'
        apply U64.ext
        intro i _
        rw [tb]; simp
      | ident => cases hg
      | _ =>
        exfalso
        obtain ⟨_, _, hg⟩ := bind_ok hg
        cases hg
    refine ⟨acts, live, h.len, h.real, ?_, h.waits, h.norm⟩
    refine (le_acts_gate h hn hg hok hqn).trans ?_
    have e1 := Le.right (n := n) (θ := θ) [.phase s.phase] (Le.left (acts ++ gatesOf live) (le_globalPhase (φ := φ) ht ho))
    refine e1.trans ?_
    rw [List.append_assoc (acts ++ gatesOf live)]
    refine Le.left _ ?_
    have := le_phase_phase (n := n) (θ := θ) φ s.phase
    rw [add_comm] at this
    exact this
  · obtain ⟨d, hd, hg⟩ := isGate _ hi
    obtain ⟨ins, cnd⟩ := l
    dsimp only at hd hc
    subst hd hc
    refine h.mergeable hN hn hg hok hqN ?_ (fun hm => H.norm hm d u hl hg) hs2 hgood
    by_contra hno
    have hnil : qubitsOf d = [] := by
      rw [List.eq_nil_iff_forall_not_mem]
      intro q hq
      exact hno ⟨q, (build_mask hok hg q).2 hq⟩
    rcases H.tangible d hl hnil with rfl | ⟨φ, cs, vs, rfl⟩
    · cases hg
      exact hne rfl
    · obtain ⟨o, ho', hg'⟩ := bind_ok (show (do let o ← mkOperands [] cs vs; pure (UGate.globalPhase φ o)) = .ok _ from hg)
      cases hg'
      refine hnp φ o rfl ?_
      apply U64.ext
      intro i _
      rw [zero_bit]
      by_contra hb
      rw [Bool.not_eq_false] at hb
      refine hno ⟨i, ?_⟩
      show (o.t ||| o.c).getLsbD i = true
      rw [BitVec.getLsbD_or, hb]; simp
  · exact (h.pushItem hN hn hl hb hok hqn hs).1

/-! ## the loop -/

/-- the loop over the zipped vectors -/
noncomputable def stepPair (mb : Nat) (s : OptState) (p : Option Condition × Item) : Res OptState := s.step mb p.1 p.2

theorem optLoop_eq {C : Circuit} (hC : C.conds.length = C.gates.length) (mb : Nat) (s : OptState) :
    C.optLoop mb s = (C.conds.zip C.gates).foldlM (stepPair mb) s := by
  have key : ∀ m k (s : OptState), k + m = C.gates.length → (List.range' k m).foldlM (fun s idx => do
      let g ← elemAt C.gates idx
      let c ← elemAt C.conds idx
      s.step mb c g) s = ((C.conds.drop k).zip (C.gates.drop k)).foldlM (stepPair mb) s := by
    intro m
    induction m with
    | zero =>
      intro k s hk
      rw [List.drop_eq_nil_of_le (by omega), List.drop_eq_nil_of_le (by omega)]
      rfl
    | succ m ih =>
      intro k s hk
      have h1 : k < C.gates.length := by omega
      have h2 : k < C.conds.length := by omega
      rw [List.range'_succ, List.foldlM_cons, List.drop_eq_getElem_cons h1, List.drop_eq_getElem_cons h2, List.zip_cons_cons, List.foldlM_cons,
        elemAt_ok.2 (List.getElem?_eq_getElem h1), ok_bind, elemAt_ok.2 (List.getElem?_eq_getElem h2), ok_bind]
      unfold stepPair
      dsimp only
      congr 1
      funext s1
      exact ih (k + 1) s1 (by omega)
  have := key C.gates.length 0 s (by omega)
  unfold Circuit.optLoop
  rw [List.range_eq_range', this]
  simp

theorem loop_log {mb : Nat} {ps : List (Option Condition × Item)} {s s' : OptState} (h : ps.foldlM (stepPair mb) s = .ok s') : ∃ t, s'.log = s.log ++ t := by
  induction ps generalizing s with
  | nil => cases h; exact ⟨[], by simp⟩
  | cons p ps ih =>
    rw [List.foldlM_cons] at h
    obtain ⟨s1, h1, h⟩ := bind_ok h
    obtain ⟨t1, e1⟩ := step_log h1
    obtain ⟨t2, e2⟩ := ih h
    exact ⟨t1 ++ t2, by rw [e2, e1, List.append_assoc]⟩

theorem OptInv.loop (H : OptHyp n N all) (hN : N ≤ n) (hn : n < 64) {mb : Nat} {rest : List Line} {gs : List Item} :
    ∀ {pre : List Line} {s s' : OptState} {acts : List Act} {live : List (Nat × UGate)}, OptInv n N θ all pre s acts live →
      (∀ l ∈ rest, l ∈ all) → rest.mapM (fun l => l.instr.build) = .ok gs → ((rest.map (·.cond)).zip gs).foldlM (stepPair mb) s = .ok s' →
      (∀ p ∈ s'.log, GoodMerge p) → ∃ acts' live', OptInv n N θ all (pre ++ rest) s' acts' live' := by
  induction rest generalizing gs with
  | nil =>
    intro pre s s' acts live h _ hb hs _
    cases hb
    cases hs
    rw [List.append_nil]
    exact ⟨acts, live, h⟩
  | cons l rest ih =>
    intro pre s s' acts live h hall hb hs hgood
    rw [List.mapM_cons] at hb
    obtain ⟨g, hg, hb⟩ := bind_ok hb
    obtain ⟨gs', hgs, hb⟩ := bind_ok hb
    cases hb
    rw [List.map_cons, List.zip_cons_cons, List.foldlM_cons] at hs
    obtain ⟨s1, h1, hs⟩ := bind_ok hs
    obtain ⟨t, ht⟩ := loop_log hs
    obtain ⟨acts1, live1, hI⟩ := h.step H hN hn (hall l List.mem_cons_self) hg h1 (fun p hp => hgood p (by rw [ht]; exact List.mem_append_left _ hp))
    obtain ⟨acts2, live2, hI2⟩ := ih hI (fun x hx => hall x (List.mem_cons_of_mem _ hx)) hgs hs hgood
    refine ⟨acts2, live2, ?_⟩
    rw [List.append_assoc] at hI2
    exact hI2

theorem optInv_init (n N : Nat) (θ : String → Option ℝ) (all : List Line) :
    OptInv n N θ all [] ⟨[], [], 0, [], List.replicate N none, []⟩ [] [] where
  len := rfl
  real := .nil
  le := le_phase_zero
  waits := ⟨by simp, by simp, fun q i => by
    constructor
    · intro h
      rw [List.getElem?_replicate] at h
      split at h <;> simp at h
    · rintro ⟨g, h, -⟩; simp at h, by simp, by simp, by simp, by simp, by simp⟩
  norm := fun _ p hp => by simp at hp

/-! ## the end -/

theorem map_some_perm {α : Type} {l l' : List α} (h : (l.map some).Perm (l'.map some)) : l.Perm l' := by
  have := h.filterMap id
  rwa [List.filterMap_map, List.filterMap_map, Function.id_comp, List.filterMap_some, List.filterMap_some] at this

theorem mapM_elemAt {α : Type} {l : List α} {is : List Nat} {as : List α} (h : is.mapM (elemAt l) = .ok as) :
    as.map some = is.map fun i => l[i]? := by
  induction is generalizing as with
  | nil => cases h; rfl
  | cons i is ih =>
    rw [List.mapM_cons] at h
    obtain ⟨a, ha, h⟩ := bind_ok h
    obtain ⟨as', has, h⟩ := bind_ok h
    cases h
    rw [List.map_cons, List.map_cons, ih has, elemAt_ok.1 ha]

theorem OptInv.finish {pre : List Line} {s s' : OptState} {acts : List Act} {live : List (Nat × UGate)}
    (h : OptInv n N θ all pre s acts live) (hN : N ≤ n) (hs : s.finish = .ok s') :
    ∃ acts' ε, |ε| ≤ 1e-12 ∧ s'.conds.length = s'.gates.length ∧ List.Forall₂ (Realises all N) acts' (s'.conds.zip s'.gates) ∧
      Le n θ (pre.map .line) (acts' ++ [.phase ε]) ∧ s'.log = s.log := by
  unfold OptState.finish at hs
  obtain ⟨gs, hgs, hs⟩ := bind_ok hs
  have hperm : (live.map Prod.snd).Perm gs := by
    apply map_some_perm
    rw [mapM_elemAt hgs]
    have e1 : (live.map Prod.snd).map some = (live.map Prod.fst).map fun i => s.pool[i]? := by
      rw [List.map_map, List.map_map]
      refine List.map_congr_left fun p hp => ?_
      exact (h.waits.pool p hp).symm
    rw [e1]
    refine List.Perm.map _ ?_
    obtain ⟨hnd, hm⟩ := sortUnique_spec (s.waiting.filterMap id)
    rw [List.perm_ext_iff_of_nodup h.waits.nodup hnd]
    intro i
    rw [hm, List.mem_filterMap]
    constructor
    · intro hi
      obtain ⟨p, hp, rfl⟩ := List.mem_map.1 hi
      obtain ⟨q, hq⟩ := h.waits.uses p hp
      have := (h.waits.table q p.1).2 ⟨p.2, hp, hq⟩
      exact ⟨some p.1, List.mem_of_getElem? this, rfl⟩
    · rintro ⟨w, hw, hwi⟩
      obtain ⟨q, hq⟩ := List.mem_iff_getElem?.1 hw
      rw [show w = some i from hwi] at hq
      obtain ⟨g, hg, -⟩ := (h.waits.table q i).1 hq
      exact List.mem_map.2 ⟨_, hg, rfl⟩
  have hreg : ∀ g ∈ live.map Prod.snd, InReg N g := by
    intro g hg
    obtain ⟨p, hp, rfl⟩ := List.mem_map.1 hg
    exact h.waits.reg p hp
  have hval : ∀ g ∈ live.map Prod.snd, Valid g := by
    intro g hg
    obtain ⟨p, hp, rfl⟩ := List.mem_map.1 hg
    exact h.waits.valid p hp
  have hlen : (s.conds ++ gs.map fun _ => none).length = (s.gates ++ gs.map fun g => (Sum.inl (Gate.det g) : Item)).length := by
    simp [h.len]
  have hreal : List.Forall₂ (Realises all N) (acts ++ gs.map Act.gate) ((s.conds ++ gs.map fun _ => none).zip (s.gates ++ gs.map fun g => (Sum.inl (Gate.det g) : Item))) := by
    rw [List.zip_append h.len]
    refine List.rel_append h.real ?_
    have : ∀ l : List UGate, (∀ g ∈ l, g ∈ gs) → List.Forall₂ (Realises all N) (l.map Act.gate)
        ((l.map fun _ => (none : Option Condition)).zip (l.map fun g => (Sum.inl (Gate.det g) : Item))) := by
      intro l
      induction l with
      | nil => intro _; exact .nil
      | cons g l ih =>
        intro hl
        have hg := hperm.mem_iff.2 (hl g List.mem_cons_self)
        exact .cons ⟨rfl, hval g hg, hreg g hg⟩ (ih fun x hx => hl x (List.mem_cons_of_mem _ hx))
    exact this gs fun _ h => h
  have hle : Le n θ (pre.map .line) (acts ++ gs.map Act.gate ++ [.phase s.phase]) := by
    refine h.le.trans (Le.right _ (Le.left _ ?_))
    rw [gatesOf_eq]
    exact le_perm hperm h.waits.apart fun g hg q hq => lt_of_lt_of_le (hreg g hg q hq) hN
  dsimp only at hs
  split at hs
  · obtain ⟨g, hg, hs⟩ := bind_ok hs
    obtain ⟨o, ho, hg⟩ := bind_ok (show (do let o ← mkOperands [] [] []; pure (UGate.globalPhase s.phase o)) = .ok g from hg)
    cases hg
    obtain ⟨hv, -, -⟩ := build_valid (d := .globalPhase s.phase [] []) (g := .globalPhase s.phase o) trivial (by
      show (do let o ← mkOperands [] [] []; pure (UGate.globalPhase s.phase o)) = _
      rw [ho]; rfl)
    have hb := fun i => build_mask (d := .globalPhase s.phase [] []) (g := .globalPhase s.phase o) trivial (by
      show (do let o ← mkOperands [] [] []; pure (UGate.globalPhase s.phase o)) = _
      rw [ho]; rfl) i
    have hno : ∀ i, ¬ (o.t ||| o.c).getLsbD i = true := by
      intro i hi
      have := (hb i).1 hi
      simp [qubitsOf, targetsOf, controlsOf, ctrlList, effectiveValues] at this
    have ht : o.t = 0 := by
      apply U64.ext
      intro i _
      rw [zero_bit]
      by_contra hc
      exact hno i (by rw [BitVec.getLsbD_or]; simp at hc; rw [hc]; simp)
    have hc : o.c = 0 := by
      apply U64.ext
      intro i _
      rw [zero_bit]
      by_contra hc
      exact hno i (by rw [BitVec.getLsbD_or]; simp at hc; rw [hc]; simp)
    have hlog := push_log hs
    obtain ⟨w, hw, hs⟩ := bind_ok hs
    cases hs
    refine ⟨acts ++ gs.map Act.gate ++ [.gate (.globalPhase s.phase o)], 0, by norm_num, ?_, ?_, ?_, hlog⟩
    · dsimp only
      rw [List.length_append, List.length_append (as := _ ++ _), hlen]; rfl
    · dsimp only
      rw [zip_snoc hlen]
      exact forall2_snoc hreal ⟨rfl, hv, fun q hq => absurd hq (hno q)⟩
    · refine (hle.trans (Le.left _ (le_phase_globalPhase ht hc))).trans ?_
      have := Le.left (n := n) (θ := θ) (acts ++ gs.map Act.gate ++ [.gate (.globalPhase s.phase o)]) (le_phase_zero (n := n) (θ := θ))
      rw [List.append_nil] at this
      exact this
  · rename_i hsmall
    cases hs
    exact ⟨acts ++ gs.map Act.gate, s.phase, not_lt.1 hsmall, hlen, hreal, hle, rfl⟩

/-! ## running the new circuit -/

theorem valid_runs {g : UGate} (hv : Valid g) {L n : Nat} (hL : LanesOK L) (hn : n < 64) (hr : InReg n g) (ψ : U64 → ℂ) (reg : List Bool) (pos : Nat) :
    g.RunsOn L n ⟨ψ, reg, pos⟩ ⟨onState (2 ^ n) (opOf g) ψ, reg, pos⟩ none := by
  obtain ⟨dev, hdev, h⟩ := update_valid hv hL hn (one_fits hn) (fun q h => hr q (uses_iff.2 (.inl h)))
    (fun p h => hr p.1 (uses_iff.2 (.inr ⟨p.2, h⟩)))
  unfold UGate.RunsOn
  rw [hdev]
  have := h ψ
  rw [show onState (1 * 2 ^ n) (opOf g) ψ = onState (2 ^ n) (opOf g) ψ by rw [Nat.one_mul]] at this
  exact ⟨rfl, rfl, rfl, this⟩

theorem acts_run (H : OptHyp n N all) (hN : N ≤ n) (hn : n < 64) {L : Nat} (hL : LanesOK L) {acts : List Act} {items : List (Option Condition × Item)}
    (hreal : List.Forall₂ (Realises all N) acts items) {s s' : Situation} {us : List ℝ} (h : Acts n θ acts s us s')
    {rnd : Nat → ℝ} {pos : Nat} (hr : ∀ i (hi : i < us.length), rnd (pos + i) = us[i]) {m : U64} (hm : MaskIn m s) :
    ∃ m', MaskIn m' s' ∧ SeqRun (lineStep L n rnd θ) items (⟨s.psi, s.reg, pos⟩, m) (⟨s'.psi, s'.reg, pos + us.length⟩, m') none := by
  induction hreal generalizing s us pos m with
  | nil => cases h; exact ⟨m, hm, .nil _⟩
  | @cons a p acts items hap hrest ih =>
    cases h with
    | cons _ _ _ s1 _ us vs h1 h2 =>
      have hr1 : ∀ i (hi : i < us.length), rnd (pos + i) = us[i] := fun i hi => by
        rw [hr i (by rw [List.length_append]; omega), List.getElem_append_left]
      have hr2 : ∀ i (hi : i < vs.length), rnd (pos + us.length + i) = vs[i] := fun i hi => by
        rw [Nat.add_assoc, hr (us.length + i) (by rw [List.length_append]; omega), List.getElem_append_right (by omega)]
        simp
      have hstep : ∃ m1, MaskIn m1 s1 ∧ lineStep L n rnd θ p (⟨s.psi, s.reg, pos⟩, m) (⟨s1.psi, s1.reg, pos + us.length⟩, m1) none := by
        cases h1 with
        | line l _ _ _ he =>
          obtain ⟨hl, hc, hb⟩ := hap
          obtain ⟨m1, ⟨hm1, -⟩, h⟩ := line_step hb (H.ok l hl) hL hn (fun q hq => lt_of_lt_of_le (H.qubits l hl q hq) hN) he hr1 hm
          refine ⟨m1, hm1, ?_⟩
          obtain ⟨pc, pit⟩ := p
          dsimp only at hc
          rw [hc]
          exact h
        | gate g _ hf =>
          obtain ⟨rfl, hv, hreg⟩ := hap
          refine ⟨m, hm, ?_⟩
          unfold lineStep
          dsimp only [evalCond]
          unfold Item.RunsOn
          dsimp only
          rw [if_neg]
          · refine ⟨valid_runs hv hL hn (fun q hq => lt_of_lt_of_le (hreg q hq) hN) s.psi s.reg pos, ?_⟩
            show m = m ||| 0
            simp
          · rw [not_not]
            exact (and_zero_iff _ _).2 fun i h1 h2 => hf i (hm i h1) h2
        | phase φ => exact hap.elim
      obtain ⟨m1, hm1, hs1⟩ := hstep
      obtain ⟨m2, hm2, hs2⟩ := ih h2 hr2 hm1
      refine ⟨m2, hm2, ?_⟩
      rw [Nat.add_assoc, ← List.length_append] at hs2
      exact .cons _ _ _ _ _ _ hs1 hs2

theorem acts_of_history {ls : List Line} {s s' : Situation} {uss : List (List ℝ)} (h : History n θ ls s uss s') :
    Acts n θ (ls.map .line) s uss.flatten s' := by
  induction h with
  | nil s => exact .nil _
  | cons l ls s s1 s2 us uss he _ ih =>
    rw [List.map_cons, List.flatten_cons]
    exact .cons _ _ _ _ _ _ _ (.line l _ _ _ he) ih

end Verif.Proofs
