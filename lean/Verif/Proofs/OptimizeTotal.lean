import Verif.Proofs.OptimizeRun

/-! # `Circuit::optimize` terminates normally, and families of gates for which merging never loses a qubit -/

namespace Verif.Proofs
open Verif Verif.Spec Verif.Model
attribute [-simp] BitVec.getLsbD_eq_getElem

/-! ## the results of merging -/

theorem runStages_mem {g1 g2 g : UGate} {φ : ℝ} {ss : List (UGate → UGate → Stage)} (h : runStages g1 g2 ss = .ok (some (g, φ))) :
    ∃ s ∈ ss, s g1 g2 = .ok (some (g, φ)) := by
  induction ss with
  | nil => cases h
  | cons s ss ih =>
    unfold runStages at h
    obtain ⟨r, hr, h⟩ := bind_ok h
    cases r with
    | some r =>
      cases h
      exact ⟨s, List.mem_cons_self, hr⟩
    | none =>
      obtain ⟨s', hs', h'⟩ := ih h
      exact ⟨s', List.mem_cons_of_mem _ hs', h'⟩

theorem mergeGate_cases {g1 g2 g : UGate} {φ : ℝ} (h : mergeGate g1 g2 = .ok (g, φ)) :
    (g1 = .ident ∧ g = g2) ∨ (g2 = .ident ∧ g = g1) ∨ (∃ φ o, g1 = .globalPhase φ o ∧ o.c = 0 ∧ g = g2) ∨
    (∃ φ o, g2 = .globalPhase φ o ∧ o.c = 0 ∧ g = g1) ∨ mergeDense g1 g2 = .ok (g, φ) ∨
    (g1.operands.c = g2.operands.c ∧ g1.operands.v = g2.operands.v ∧ ∃ s ∈ mergeStages, s g1 g2 = .ok (some (g, φ))) := by
  unfold mergeGate at h
  split at h
  · cases h
  · cases h
  · cases h; exact .inl ⟨rfl, rfl⟩
  · cases h; exact .inr (.inl ⟨rfl, rfl⟩)
  · split at h
    · rename_i φ hφ
      obtain ⟨o, rfl, h0⟩ := free_phase hφ
      cases h
      exact .inr (.inr (.inl ⟨_, o, rfl, h0, rfl⟩))
    · split at h
      · rename_i φ hφ
        obtain ⟨o, rfl, h0⟩ := free_phase hφ
        cases h
        exact .inr (.inr (.inr (.inl ⟨_, o, rfl, h0, rfl⟩)))
      · split at h
        · exact .inr (.inr (.inr (.inr (.inl h))))
        · rename_i hcv
          push Not at hcv
          obtain ⟨r, hr, h⟩ := bind_ok h
          cases r with
          | some r =>
            cases h
            exact .inr (.inr (.inr (.inr (.inr ⟨hcv.1, hcv.2, runStages_mem hr⟩))))
          | none => exact .inr (.inr (.inr (.inr (.inl h))))

theorem mergeDense_out {g1 g2 g : UGate} {φ : ℝ} (h : mergeDense g1 g2 = .ok (g, φ)) : ∃ G, g = .dense G := by
  unfold mergeDense at h
  obtain ⟨m1, _, h⟩ := bind_ok h
  obtain ⟨e1, _, h⟩ := bind_ok h
  obtain ⟨m2, _, h⟩ := bind_ok h
  obtain ⟨e2, _, h⟩ := bind_ok h
  obtain ⟨m, _, h⟩ := bind_ok h
  obtain ⟨g', hg, h⟩ := bind_ok h
  cases h
  unfold GateDesc.build at hg
  dsimp only at hg
  obtain ⟨_, _, hg⟩ := bind_ok hg
  cases hg
  exact ⟨_, rfl⟩

theorem build_not_perm {d : GateDesc} {g : UGate} (hd : match d with | .perm _ => False | _ => True) (h : d.build = .ok g) : NotPerm g := by
  rintro p rfl
  cases d <;> unfold GateDesc.build at h <;> dsimp only at h <;> first
    | (exact hd)
    | (cases h; done)
    | (obtain ⟨_, _, h⟩ := bind_ok h
       cases h; done)

theorem notPerm_ident : NotPerm .ident := fun p h => by cases h

theorem stage_notPerm {g1 g2 g : UGate} {φ : ℝ} {s : UGate → UGate → Stage} (hs : s ∈ mergeStages) (h : s g1 g2 = .ok (some (g, φ))) : NotPerm g := by
  have fixed : ∀ f p tb, stageFixed f p tb g1 g2 = .ok (some (g, φ)) → NotPerm g := by
    intro f p tb h
    unfold stageFixed at h
    split at h
    swap; · cases h
    split at h
    swap; · cases h
    obtain ⟨t1, _, h⟩ := bind_ok h
    obtain ⟨t2, _, h⟩ := bind_ok h
    split at h
    swap; · cases h
    split at h
    · cases h; exact notPerm_ident
    · obtain ⟨g', hg, h⟩ := bind_ok h
      cases h
      exact build_not_perm trivial hg
    · cases h
  have angle : ∀ f mk, stageAngle f mk g1 g2 = .ok (some (g, φ)) → NotPerm g := by
    intro f mk h
    unfold stageAngle at h
    split at h
    swap; · cases h
    split at h
    swap; · cases h
    obtain ⟨t1, _, h⟩ := bind_ok h
    obtain ⟨t2, _, h⟩ := bind_ok h
    split at h
    swap; · cases h
    dsimp only at h
    split at h
    swap; · cases h
    obtain ⟨g', hg, h⟩ := bind_ok h
    cases h
    exact build_not_perm trivial hg
  unfold mergeStages at hs
  simp only [List.mem_cons, List.not_mem_nil, or_false] at hs
  rcases hs with rfl | rfl | rfl | rfl | rfl | rfl | rfl | rfl | rfl | rfl
  · unfold stagePhase at h
    split at h
    swap; · cases h
    obtain ⟨g', hg, h⟩ := bind_ok h
    cases h
    exact build_not_perm trivial hg
  · unfold stagePauliPair at h
    split at h
    swap; · cases h
    obtain ⟨t1, _, h⟩ := bind_ok h
    obtain ⟨t2, _, h⟩ := bind_ok h
    split at h
    swap; · cases h
    split at h
    · cases h; exact notPerm_ident
    split at h
    swap; · cases h
    split at h
    swap; · cases h
    obtain ⟨g', hg, h⟩ := bind_ok h
    cases h
    exact build_not_perm trivial hg
  · unfold stagePauliProduct at h
    obtain ⟨t1, _, h⟩ := bind_ok h
    obtain ⟨t2, _, h⟩ := bind_ok h
    split at h
    swap; · cases h
    obtain ⟨g', hg, h⟩ := bind_ok h
    cases h
    exact build_not_perm trivial hg
  · exact fixed _ _ _ h
  · exact angle _ _ h
  · exact fixed _ _ _ h
  · exact angle _ _ h
  · exact fixed _ _ _ h
  · exact angle _ _ h
  · unfold stageSwap at h
    split at h
    swap; · cases h
    split at h
    · cases h; exact notPerm_ident
    · cases h

theorem mergeGate_notPerm {g1 g2 g : UGate} {φ : ℝ} (h : mergeGate g1 g2 = .ok (g, φ)) : NotPerm g := by
  obtain ⟨h1, h2⟩ := notPerm_of_merge h
  rcases mergeGate_cases h with ⟨-, rfl⟩ | ⟨-, rfl⟩ | ⟨_, _, -, -, rfl⟩ | ⟨_, _, -, -, rfl⟩ | h | ⟨-, -, s, hs, h⟩
  · exact h2
  · exact h1
  · exact h2
  · exact h1
  · obtain ⟨G, rfl⟩ := mergeDense_out h
    intro p hp; cases hp
  · exact stage_notPerm hs h

/-! ## every step succeeds -/

/-- the bookkeeping of the loop; `P` holds for the gates in the pool, `Q` for the pairs that were merged -/
structure PoolOK (N : Nat) (P : UGate → Prop) (Q : UGate × UGate → Prop) (s : OptState) : Prop where
  len : s.waiting.length = N
  idx : ∀ q i : Nat, s.waiting[q]? = some (some i) → i < s.pool.length
  valid : ∀ g ∈ s.pool, Valid g ∧ NotPerm g ∧ InReg N g ∧ P g
  log : ∀ p ∈ s.log, Q p

variable {N : Nat} {P : UGate → Prop} {Q : UGate × UGate → Prop}

/-- `P` is kept by merging, and merging two such gates gives a pair in `Q` -/
def Keeps (P : UGate → Prop) (Q : UGate × UGate → Prop) : Prop := ∀ g1 g2 g φ, Valid g1 → Valid g2 → P g1 → P g2 → mergeGate g1 g2 = .ok (g, φ) →
  (∃ n, n < 64 ∧ ∀ q, UGate.uses g1 q ∨ UGate.uses g2 q → q < n) → P g ∧ Q (g1, g2)

theorem PoolOK.push {s : OptState} (h : PoolOK N P Q s) {it : Item} (hq : ∀ q ∈ Item.operandList it, q < N) (c : Option Condition) :
    ∃ s', s.push it c = .ok s' ∧ PoolOK N P Q s' ∧ s'.pool = s.pool := by
  obtain ⟨w, hw⟩ := markAll_ok s.waiting (Item.operandList it) none (by rw [h.len]; exact hq)
  obtain ⟨hl, -, hm⟩ := markAll_spec hw
  unfold OptState.push
  rw [hw, ok_bind]
  refine ⟨_, rfl, ⟨hl.trans h.len, ?_, h.valid, h.log⟩, rfl⟩
  intro q i hqi
  dsimp only at hqi
  rw [hm] at hqi
  split at hqi
  · cases hqi
  · exact h.idx q i hqi

theorem PoolOK.wait {s : OptState} (h : PoolOK N P Q s) {g : UGate} (hv : Valid g ∧ NotPerm g ∧ InReg N g ∧ P g) :
    ∃ s', s.wait g = .ok s' ∧ PoolOK N P Q s' := by
  obtain ⟨w, hw⟩ := markAll_ok s.waiting g.operandQubitList (some s.pool.length) (by
    rw [h.len]; exact fun q hq => hv.2.2.1 q (mem_operandList.1 hq))
  obtain ⟨hl, -, hm⟩ := markAll_spec hw
  unfold OptState.wait
  rw [hw, ok_bind]
  refine ⟨_, rfl, ⟨hl.trans h.len, ?_, ?_, h.log⟩⟩
  · intro q i hqi
    dsimp only at hqi ⊢
    rw [hm] at hqi
    rw [List.length_append, List.length_singleton]
    split at hqi
    · cases hqi; omega
    · have := h.idx q i hqi; omega
  · intro x hx
    rcases List.mem_append.1 hx with hx | hx
    · exact h.valid x hx
    · rw [List.mem_singleton.1 hx]; exact hv

theorem mapM_total {α β : Type} {f : α → Res β} {l : List α} (h : ∀ a ∈ l, ∃ b, f a = .ok b) : ∃ bs, l.mapM f = .ok bs := by
  induction l with
  | nil => exact ⟨[], rfl⟩
  | cons a l ih =>
    obtain ⟨b, hb⟩ := h a List.mem_cons_self
    obtain ⟨bs, hbs⟩ := ih fun x hx => h x (List.mem_cons_of_mem _ hx)
    exact ⟨b :: bs, by rw [List.mapM_cons, hb, ok_bind, hbs, ok_bind]; rfl⟩

theorem elemAt_lt {α : Type} {l : List α} {i : Nat} (h : i < l.length) : elemAt l i = .ok l[i] := elemAt_ok.2 (List.getElem?_eq_getElem h)

theorem PoolOK.indices {s : OptState} (h : PoolOK N P Q s) {it : Item} (hq : ∀ q ∈ Item.operandList it, q < N) :
    ∃ is, s.waitingIndices it = .ok is ∧ ∀ i ∈ is, i < s.pool.length := by
  obtain ⟨l, hl⟩ := mapM_total (f := elemAt s.waiting) (l := Item.operandList it) fun q hq' =>
    ⟨_, elemAt_lt (by rw [h.len]; exact hq q hq')⟩
  have hw : s.waitingIndices it = .ok (sortUnique (l.filterMap id)) := by
    unfold OptState.waitingIndices
    rw [hl]; rfl
  refine ⟨_, hw, fun i hi => ?_⟩
  obtain ⟨q, -, hqi⟩ := ((waitingIndices_spec hw).2 i).1 hi
  exact h.idx q i hqi

theorem PoolOK.pushAll {is : List Nat} {s : OptState} (h : PoolOK N P Q s) (hi : ∀ i ∈ is, i < s.pool.length) :
    ∃ s', s.pushAll is = .ok s' ∧ PoolOK N P Q s' ∧ s'.pool = s.pool := by
  induction is generalizing s with
  | nil => exact ⟨s, rfl, h, rfl⟩
  | cons i is ih =>
    have hlt := hi i List.mem_cons_self
    obtain ⟨s1, h1, hp1, e1⟩ := h.push (it := .inl (.det s.pool[i])) (fun q hq =>
      (h.valid _ (List.getElem_mem hlt)).2.2.1 q (mem_itemList.1 hq)) none
    obtain ⟨s2, h2, hp2, e2⟩ := ih hp1 fun j hj => by rw [e1]; exact hi j (List.mem_cons_of_mem _ hj)
    refine ⟨s2, ?_, hp2, e2.trans e1⟩
    unfold OptState.pushAll
    rw [List.foldlM_cons, elemAt_lt hlt, ok_bind, h1, ok_bind]
    exact h2

theorem PoolOK.should {s : OptState} (h : PoolOK N P Q s) {g : UGate} (hq : InReg N g) {is : List Nat} (hi : ∀ i ∈ is, i < s.pool.length) (mb : Nat) :
    ∃ b, s.shouldMerge mb g is = .ok b := by
  have h1 : ∀ qs : List Nat, (∀ q ∈ qs, q < N) → ∃ l, qs.filterMapM (fun q => do
      let w ← elemAt s.waiting q
      pure (if w = none then some q else none)) = (Except.ok l : Res (List Nat)) := by
    intro qs
    induction qs with
    | nil => intro _; exact ⟨[], rfl⟩
    | cons q qs ih =>
      intro hqs
      obtain ⟨l, hl⟩ := ih fun x hx => hqs x (List.mem_cons_of_mem _ hx)
      rw [List.filterMapM_cons, elemAt_lt (by rw [h.len]; exact hqs q List.mem_cons_self), ok_bind]
      rw [show (pure (if s.waiting[q]'(by rw [h.len]; exact hqs q List.mem_cons_self) = none then some q else none) : Res (Option Nat)) = .ok _ from rfl, ok_bind]
      split
      · exact ⟨_, hl⟩
      · rw [hl]; exact ⟨_, rfl⟩
  obtain ⟨newly, hn⟩ := h1 (Item.operandList (.inl (.det g))) fun q hx => hq q (mem_itemList.1 hx)
  obtain ⟨prev, hp⟩ := mapM_total (f := elemAt s.pool) (l := is) fun i hx => ⟨_, elemAt_lt (hi i hx)⟩
  unfold OptState.shouldMerge OptState.newlyApplied
  rw [hn, ok_bind, hp, ok_bind]
  split <;> exact ⟨_, rfl⟩

theorem PoolOK.merge {is : List Nat} (hk : Keeps P Q) (hN : N < 64) : ∀ {s : OptState} {g : UGate}, PoolOK N P Q s →
    Valid g ∧ NotPerm g ∧ InReg N g ∧ P g → (∀ i ∈ is, i < s.pool.length) →
    ∃ r : OptState × UGate, s.mergeAll g is = .ok r ∧ PoolOK N P Q r.1 ∧ Valid r.2 ∧ NotPerm r.2 ∧ InReg N r.2 ∧ P r.2 := by
  induction is with
  | nil => intro s g h hg _; exact ⟨(s, g), rfl, h, hg⟩
  | cons i is ih =>
    intro s g h hg hi
    have hlt := hi i List.mem_cons_self
    obtain ⟨pv, pp, pr, pP⟩ := h.valid _ (List.getElem_mem hlt)
    obtain ⟨gv, gp, gr, gP⟩ := hg
    have hlen : ∃ n, n < 64 ∧ ∀ q, UGate.uses s.pool[i] q ∨ UGate.uses g q → q < n := ⟨N, hN, fun q hq => hq.elim (pr q) (gr q)⟩
    obtain ⟨m, φ, δ, hm, hM, -, -⟩ := mergeGate_ok pv gv pp gp hlen
    obtain ⟨hPm, hQ⟩ := hk _ _ _ _ pv gv pP gP hm hlen
    obtain ⟨r, hr, hr'⟩ := ih (s := { s with phase := s.phase + φ, log := s.log ++ [(s.pool[i], g)] }) (g := m)
      ⟨h.len, h.idx, h.valid, fun p hp => by
        rcases List.mem_append.1 hp with hp | hp
        · exact h.log p hp
        · rw [List.mem_singleton.1 hp]; exact hQ⟩
      ⟨hM.valid, mergeGate_notPerm hm, fun q hq => (hM.qubits q hq).elim (pr q) (gr q), hPm⟩
      (fun j hj => hi j (List.mem_cons_of_mem _ hj))
    refine ⟨r, ?_, hr'⟩
    unfold OptState.mergeAll
    rw [List.foldlM_cons]
    dsimp only
    rw [elemAt_lt hlt, ok_bind, hm, ok_bind]
    exact hr

theorem PoolOK.mergeable {s : OptState} (hk : Keeps P Q) (hN : N < 64) (h : PoolOK N P Q s) {g : UGate} (hg : Valid g ∧ NotPerm g ∧ InReg N g ∧ P g) (mb : Nat) :
    ∃ s', s.mergeable mb g = .ok s' ∧ PoolOK N P Q s' := by
  obtain ⟨is, his, hi⟩ := h.indices (it := .inl (.det g)) fun q hq => hg.2.2.1 q (mem_itemList.1 hq)
  unfold OptState.mergeable
  rw [his, ok_bind]
  split
  · exact h.wait hg
  · obtain ⟨b, hb⟩ := h.should hg.2.2.1 hi mb
    rw [hb, ok_bind]
    split
    · obtain ⟨r, hr, hr1, hr2⟩ := PoolOK.merge hk hN h hg hi
      rw [hr, ok_bind]
      exact hr1.wait hr2
    · obtain ⟨s1, h1, hp1, -⟩ := h.pushAll hi
      rw [h1, ok_bind]
      exact hp1.wait hg

theorem PoolOK.pushItem {s : OptState} (h : PoolOK N P Q s) {it : Item} (hq : ∀ q ∈ Item.operandList it, q < N) (c : Option Condition) :
    ∃ s', s.pushItem it c = .ok s' ∧ PoolOK N P Q s' := by
  obtain ⟨is, his, hi⟩ := h.indices hq
  obtain ⟨s1, h1, hp1, -⟩ := h.pushAll hi
  obtain ⟨s2, h2, hp2, -⟩ := hp1.push hq c
  exact ⟨s2, by unfold OptState.pushItem; rw [his, ok_bind, h1, ok_bind, h2], hp2⟩

theorem PoolOK.step {s : OptState} (hk : Keeps P Q) (hN : N < 64) (h : PoolOK N P Q s) {it : Item} {c : Option Condition} (hq : ∀ q ∈ Item.operandList it, q < N)
    (hg : ∀ g, c = none → it = .inl (.det g) → g ≠ .ident → (∀ φ o, g = .globalPhase φ o → o.c ≠ 0) → Valid g ∧ NotPerm g ∧ InReg N g ∧ P g) (mb : Nat) :
    ∃ s', s.step mb c it = .ok s' ∧ PoolOK N P Q s' := by
  unfold OptState.step
  split
  · exact ⟨s, rfl, h⟩
  · split
    · exact ⟨_, rfl, ⟨h.len, h.idx, h.valid, h.log⟩⟩
    · rename_i ho
      exact h.mergeable hk hN (hg _ rfl rfl (fun h => by cases h) (fun φ o h => by cases h; exact ho)) mb
  · rename_i g hi hp
    exact h.mergeable hk hN (hg _ rfl rfl (fun h => hi h) (fun φ o h => (hp φ o h).elim)) mb
  · exact h.pushItem hq _

/-- only a gate line gives a deterministic gate -/
theorem gate_instr {ins : Instr} {g : UGate} (hb : ins.build = .ok (.inl (.det g))) : ∃ d, ins = .gate d ∧ d.build = .ok g := by
  cases ins with
  | gate d =>
    obtain ⟨g, hg, hb⟩ := bind_ok (show (do let g ← d.build; pure (Sum.inl (Gate.det g))) = .ok _ from hb)
    cases hb
    exact ⟨d, rfl, hg⟩
  | choice ps ds =>
    obtain ⟨gs, hgs, hb⟩ := bind_ok (show (do
      let gs ← ds.mapM GateDesc.build
      let g ← mkProbabilistic (ps.map some) (gs.map .det)
      pure (Sum.inl g)) = .ok _ from hb)
    obtain ⟨g, hg, hb⟩ := bind_ok hb
    cases hb
    obtain ⟨t, ht, hg⟩ := bind_ok hg
    cases hg
  | measure q cbit reset =>
    obtain ⟨g, hg, hb⟩ := bind_ok (show (do let g ← mkMeas q cbit reset; pure (Sum.inl (Gate.meas g))) = .ok _ from hb)
    cases hb
  | rot r key =>
    obtain ⟨p, hp, hb⟩ := bind_ok (show (do let p ← r.build; pure (Sum.inr (PGate.rot p, key))) = .ok _ from hb)
    cases hb
  | pchoice ps ls key =>
    obtain ⟨gs, hgs, hb⟩ := bind_ok (show (do
      let gs ← ls.mapM LeafDesc.build
      let p ← mkParamProbabilistic (ps.map some) gs
      pure (Sum.inr (p, key))) = .ok _ from hb)
    obtain ⟨p, hpb, hb⟩ := bind_ok hb
    cases hb

theorem PoolOK.loop {rest : List Line} {gs : List Item} (hk : Keeps P Q) (hN : N < 64) (mb : Nat) :
    ∀ {s : OptState}, PoolOK N P Q s → rest.mapM (fun l => l.instr.build) = .ok gs → (∀ l ∈ rest, l.instr.OK) → (∀ l ∈ rest, ∀ q ∈ l.instr.qubits, q < N) →
      (∀ d g, (⟨.gate d, none⟩ : Line) ∈ rest → d.build = .ok g → g ≠ .ident → (∀ φ o, g = .globalPhase φ o → o.c ≠ 0) → NotPerm g ∧ P g) →
      ∃ s', ((rest.map (·.cond)).zip gs).foldlM (stepPair mb) s = .ok s' ∧ PoolOK N P Q s' := by
  induction rest generalizing gs with
  | nil => intro s h hb _ _ _; cases hb; exact ⟨s, rfl, h⟩
  | cons l rest ih =>
    intro s h hb hok hq hd
    rw [List.mapM_cons] at hb
    obtain ⟨it, hit, hb⟩ := bind_ok hb
    obtain ⟨gs', hgs, hb⟩ := bind_ok hb
    cases hb
    have hok0 := hok l List.mem_cons_self
    obtain ⟨s1, h1, hp1⟩ := h.step hk hN (it := it) (c := l.cond)
      (fun q hx => hq l List.mem_cons_self q ((item_mask hit hok0 q).1 (mem_maskToVector.1 hx))) (by
        rintro g hc rfl hne hph
        obtain ⟨d, hdi, hdb⟩ := gate_instr hit
        obtain ⟨ins, cnd⟩ := l
        dsimp only at hc hdi
        subst hc hdi
        obtain ⟨hv, -, hs⟩ := build_valid hok0 hdb
        obtain ⟨hp, hP⟩ := hd d g List.mem_cons_self hdb hne hph
        exact ⟨hv, hp, fun q hx => hq _ List.mem_cons_self q ((build_mask hok0 hdb q).1 hx), hP⟩) mb
    obtain ⟨s2, h2, hp2⟩ := ih hp1 hgs (fun x hx => hok x (List.mem_cons_of_mem _ hx)) (fun x hx => hq x (List.mem_cons_of_mem _ hx))
      (fun d g hm => hd d g (List.mem_cons_of_mem _ hm))
    refine ⟨s2, ?_, hp2⟩
    rw [List.map_cons, List.zip_cons_cons, List.foldlM_cons]
    rw [show stepPair mb s (l.cond, it) = .ok s1 from h1, ok_bind]
    exact h2

theorem PoolOK.finish {s : OptState} (h : PoolOK N P Q s) : ∃ s', s.finish = .ok s' ∧ s'.log = s.log := by
  obtain ⟨gs, hgs⟩ := mapM_total (f := elemAt s.pool) (l := sortUnique (s.waiting.filterMap id)) fun i hi => by
    rw [(sortUnique_spec _).2, List.mem_filterMap] at hi
    obtain ⟨w, hw, hwi⟩ := hi
    obtain ⟨q, hq⟩ := List.mem_iff_getElem?.1 hw
    rw [show w = some i from hwi] at hq
    exact ⟨_, elemAt_lt (h.idx q i hq)⟩
  unfold OptState.finish
  rw [hgs, ok_bind]
  dsimp only
  split
  · rw [show (GateDesc.globalPhase s.phase [] []).build = .ok (.globalPhase s.phase ⟨0, 0, 0⟩) from rfl, ok_bind]
    unfold OptState.push
    rw [show Item.operandList (.inl (.det (.globalPhase s.phase ⟨0, 0, 0⟩))) = [] by
      show maskToVector ((0 : U64) ||| 0) = []
      rw [show (0 : U64) ||| 0 = 0 from rfl, maskToVector_zero]]
    exact ⟨_, rfl, rfl⟩
  · exact ⟨_, rfl, rfl⟩

/-! ## gates that never cancel -/

/-- one-qubit gates outside the families with a multiplication table; `A` are the possible `RZ` angles -/
def TameKind (A : Set ℝ) : Gate1 → Prop
  | .H | .RX _ | .RY _ | .U1 _ | .U2 _ _ | .U3 _ _ _ | .P0 | .P1 => True
  | .RZ a => a ∈ A
  | _ => False

def Tame (A : Set ℝ) : UGate → Prop
  | .one k _ => TameKind A k
  | .globalPhase _ o => o.c ≠ 0
  | .ecr _ | .dense _ | .sparse _ | .pauliRot _ _ => True
  | _ => False

theorem tame_angle {A : Set ℝ} {k : Gate1} {a : ℝ} (hk : TameKind A k) (h : rzAngle k = some a) : a ∈ insert 0 A := by
  cases k <;> simp [rzAngle] at h <;> simp_all [TameKind]

theorem tame_keeps {A : Set ℝ} (hA : ∀ a ∈ insert 0 A, ∀ b ∈ insert 0 A, a + b = 0 ∨ 2e-12 ≤ |a + b|) : Keeps (Tame A) GoodMerge := by
  intro g1 g2 g φ v1 v2 t1 t2 h hlen
  have nt : NotTiny (g1, g2) := by
    rintro δ hδ ⟨k1, k2, o, a, b, e1, e2, ha, hb, rfl⟩
    dsimp only at e1 e2
    subst e1 e2
    rcases hA a (tame_angle t1 ha) b (tame_angle t2 hb) with h0 | h0
    · rw [h0]; norm_num
    · exfalso
      rw [abs_div, abs_neg] at hδ
      norm_num at hδ h0
      linarith
  suffices hh : Tame A g ∧ ∀ q, UGate.uses g1 q ∨ UGate.uses g2 q → UGate.uses g q by
    refine ⟨hh.1, fun g' φ' h' => ?_, nt⟩
    dsimp only at h'
    rw [h] at h'
    cases h'
    exact hh.2
  rcases mergeGate_cases h with ⟨rfl, rfl⟩ | ⟨rfl, rfl⟩ | ⟨_, _, rfl, h0, rfl⟩ | ⟨_, _, rfl, h0, rfl⟩ | h | ⟨hc, hv, s, hs, h⟩
  · exact t1.elim
  · exact t2.elim
  · exact (t1 h0).elim
  · exact (t2 h0).elim
  · obtain ⟨G, rfl⟩ := mergeDense_out h
    obtain ⟨gd, hd, -, hu⟩ := mergeDense_spec v1 v2 hlen
    rw [h] at hd
    cases hd
    exact ⟨trivial, hu⟩
  · have fixed : ∀ f p tb, (∀ k, TameKind A k → f k = none) → stageFixed f p tb g1 g2 = .ok (some (g, φ)) → False := by
      intro f p tb hf h
      unfold stageFixed at h
      split at h
      swap; · cases h
      rw [hf _ t1] at h
      cases h
    have angle : ∀ f mk, (∀ a, TameKind A (mk a)) → stageAngle f mk g1 g2 = .ok (some (g, φ)) →
        Tame A g ∧ ∀ q, UGate.uses g1 q ∨ UGate.uses g2 q → UGate.uses g q := by
      intro f mk hmk h
      unfold stageAngle at h
      split at h
      swap; · cases h
      rename_i k1 o1 k2 o2
      split at h
      swap; · cases h
      obtain ⟨t1, t2, e1, e2, hq, heq⟩ := one_same v1 v2 hc hv
      rw [e1, ok_bind, e2, ok_bind] at h
      split at h
      swap; · cases h
      rename_i ht
      cases heq ht
      dsimp only at h
      split at h
      swap; · cases h
      rw [rebuild_one v1.1 hq] at h
      cases h
      exact ⟨hmk _, fun q hq => hq.elim id id⟩
    unfold mergeStages at hs
    simp only [List.mem_cons, List.not_mem_nil, or_false] at hs
    have hid : ∀ g, Tame A g → pauliId g = none := by
      intro g hg
      unfold pauliId
      split <;> first | rfl | exact hg.elim
    rcases hs with rfl | rfl | rfl | rfl | rfl | rfl | rfl | rfl | rfl | rfl
    · unfold stagePhase at h
      split at h
      swap; · cases h
      rename_i a o1 b o2 _
      obtain ⟨ho, ht⟩ := v1
      have hself := mkOperands_self ho
      rw [ht, maskToVector_zero] at hself
      have hb : (GateDesc.globalPhase (a + b) (UGate.globalPhase a o1).controlQubitList (UGate.globalPhase a o1).controlValueList).build =
          .ok (.globalPhase (a + b) o1) := by
        unfold GateDesc.build UGate.controlQubitList UGate.controlValueList UGate.operands
        dsimp only
        rw [hself]
        rfl
      rw [hb] at h
      cases h
      refine ⟨t1, fun q hq => ?_⟩
      rcases hq with hq | hq
      · exact hq
      · have ht2 : o2.t = 0 := v2.2
        have hc' : o1.c = o2.c := hc
        unfold UGate.uses UGate.operands at hq ⊢
        dsimp only at hq ⊢
        rw [ht, hc', ← ht2]; exact hq
    · unfold stagePauliPair at h
      rw [hid _ t1] at h
      cases h
    · have h1 : asPauli g1 = .ok none := by
        unfold asPauli
        rw [hid _ t1]
        split
        · exact t1.elim
        · rfl
      unfold stagePauliProduct at h
      rw [h1, ok_bind] at h
      obtain ⟨p2, _, h⟩ := bind_ok h
      cases h
    · exact (fixed _ _ _ (fun k hk => by cases k <;> first | rfl | exact hk.elim) h).elim
    · exact angle angleZ .U1 (fun a => trivial) h
    · exact (fixed _ _ _ (fun k hk => by cases k <;> first | rfl | exact hk.elim) h).elim
    · exact angle angleX .RX (fun a => trivial) h
    · exact (fixed _ _ _ (fun k hk => by cases k <;> first | rfl | exact hk.elim) h).elim
    · exact angle angleY .RY (fun a => trivial) h
    · unfold stageSwap at h
      split at h
      swap; · cases h
      exact t1.elim

end Verif.Proofs
