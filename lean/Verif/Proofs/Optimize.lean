import Verif.Proofs.OptimizeActs
import Verif.Model.Optimize

/-! # The loop of `Circuit::optimize` -/

namespace Verif.Proofs
open Verif Verif.Spec Verif.Model
attribute [-simp] BitVec.getLsbD_eq_getElem

/-! ## the small helpers -/

theorem elemAt_ok {α : Type} {l : List α} {i : Nat} {a : α} : elemAt l i = .ok a ↔ l[i]? = some a := by
  unfold elemAt
  cases h : l[i]? with
  | none => simp
  | some x => simp

theorem uniqueAdj_spec (l : List Nat) (h : l.Pairwise (· ≤ ·)) :
    (uniqueAdj l).Pairwise (· < ·) ∧ ∀ x, x ∈ uniqueAdj l ↔ x ∈ l := by
  induction l with
  | nil => exact ⟨by simp [uniqueAdj], fun x => by simp [uniqueAdj]⟩
  | cons a l ih =>
    obtain ⟨h1, h2⟩ := List.pairwise_cons.1 h
    obtain ⟨ih1, ih2⟩ := ih h2
    cases l with
    | nil => exact ⟨by simp [uniqueAdj], fun x => by simp [uniqueAdj]⟩
    | cons b l =>
      unfold uniqueAdj
      by_cases hab : a = b
      · subst hab
        rw [if_pos rfl]
        exact ⟨ih1, fun x => by rw [ih2]; simp⟩
      · rw [if_neg hab]
        refine ⟨List.pairwise_cons.2 ⟨fun x hx => ?_, ih1⟩, fun x => by rw [List.mem_cons, ih2, List.mem_cons (a := x) (b := a)]⟩
        have hx' := (ih2 x).1 hx
        have hab' := h1 b List.mem_cons_self
        rcases List.mem_cons.1 hx' with rfl | hx'
        · omega
        · have := (List.pairwise_cons.1 h2).1 x hx'
          omega

theorem sortUnique_spec (l : List Nat) : (sortUnique l).Nodup ∧ ∀ x, x ∈ sortUnique l ↔ x ∈ l := by
  have hs : (l.mergeSort (fun a b => decide (a ≤ b))).Pairwise (· ≤ ·) := by
    have := List.pairwise_mergeSort (le := fun a b : Nat => decide (a ≤ b)) (by
      intro a b c h1 h2; simp only [decide_eq_true_eq] at *; omega) (by
      intro a b; simp only [Bool.or_eq_true, decide_eq_true_eq]; omega) l
    exact this.imp (fun h => by simpa using h)
  obtain ⟨h1, h2⟩ := uniqueAdj_spec _ hs
  refine ⟨h1.imp (fun h => Nat.ne_of_lt h), fun x => ?_⟩
  unfold sortUnique
  rw [h2, List.mem_mergeSort]

theorem markAll_spec {w : List (Option Nat)} {qs : List Nat} {v : Option Nat} {w' : List (Option Nat)} (h : markAll w qs v = .ok w') :
    w'.length = w.length ∧ (∀ q ∈ qs, q < w.length) ∧ ∀ q, w'[q]? = if q ∈ qs then some v else w[q]? := by
  induction qs generalizing w with
  | nil => cases h; simp
  | cons p qs ih =>
    unfold markAll at h
    rw [List.foldlM_cons] at h
    obtain ⟨w1, h1, h⟩ := bind_ok h
    split at h1
    · rename_i hp
      injection h1 with h1
      subst h1
      obtain ⟨e1, e2, e3⟩ := ih h
      rw [List.length_set] at e1 e2
      refine ⟨e1, ?_, fun q => ?_⟩
      · intro q hq
        rcases List.mem_cons.1 hq with rfl | hq
        · exact hp
        · exact e2 q hq
      · rw [e3, List.getElem?_set]
        by_cases hq : q ∈ qs
        · simp [hq]
        · rw [if_neg hq]
          by_cases hpq : p = q
          · subst hpq; simp [hp]
          · rw [if_neg hpq, if_neg]
            simp only [List.mem_cons, not_or]
            exact ⟨fun h => hpq h.symm, hq⟩
    · cases h1

theorem markAll_ok (w : List (Option Nat)) (qs : List Nat) (v : Option Nat) (h : ∀ q ∈ qs, q < w.length) : ∃ w', markAll w qs v = .ok w' := by
  induction qs generalizing w with
  | nil => exact ⟨w, rfl⟩
  | cons p qs ih =>
    obtain ⟨w', hw⟩ := ih (w.set p v) (fun q hq => by rw [List.length_set]; exact h q (List.mem_cons_of_mem _ hq))
    refine ⟨w', ?_⟩
    unfold markAll at hw ⊢
    rw [List.foldlM_cons, if_pos (h p List.mem_cons_self), ok_bind]
    exact hw

theorem waitingIndices_spec {s : OptState} {g : Item} {is : List Nat} (h : s.waitingIndices g = .ok is) :
    is.Nodup ∧ ∀ i, i ∈ is ↔ ∃ q ∈ Item.operandList g, s.waiting[q]? = some (some i) := by
  obtain ⟨l, hl, h⟩ := bind_ok (show (do
    let l ← (Item.operandList g).mapM (elemAt s.waiting)
    pure (sortUnique (l.filterMap id))) = .ok is from h)
  cases h
  refine ⟨(sortUnique_spec _).1, fun i => ?_⟩
  rw [(sortUnique_spec _).2, List.mem_filterMap]
  have := mem_built hl (fun q => s.waiting[q]? = some (some i)) (fun w => id w = some i) (by
    intro q hq w hw
    rw [elemAt_ok] at hw
    rw [hw]
    simp)
  exact this

theorem mem_operandList {g : UGate} {q : Nat} : q ∈ g.operandQubitList ↔ UGate.uses g q := mem_maskToVector

theorem mem_itemList {g : UGate} {q : Nat} : q ∈ Item.operandList (.inl (.det g)) ↔ UGate.uses g q := mem_maskToVector

/-! ## the waiting table -/

/-- the table says which live gate waits at which qubit -/
structure Waits (N : Nat) (live : List (Nat × UGate)) (pool : List UGate) (w : List (Option Nat)) : Prop where
  len : w.length = N
  pool : ∀ p ∈ live, pool[p.1]? = some p.2
  table : ∀ q i, w[q]? = some (some i) ↔ ∃ g, (i, g) ∈ live ∧ UGate.uses g q
  nodup : (live.map Prod.fst).Nodup
  apart : (live.map Prod.snd).Pairwise Apart
  uses : ∀ p ∈ live, ∃ q, UGate.uses p.2 q
  reg : ∀ p ∈ live, InReg N p.2
  valid : ∀ p ∈ live, Valid p.2

theorem Waits.perm {N : Nat} {live live' : List (Nat × UGate)} {pool : List UGate} {w : List (Option Nat)} (h : Waits N live pool w)
    (hp : live.Perm live') : Waits N live' pool w where
  len := h.len
  pool := fun p hm => h.pool p (hp.mem_iff.2 hm)
  table := fun q i => by rw [h.table]; simp only [hp.mem_iff]
  nodup := (hp.map _).nodup_iff.1 h.nodup
  apart := ((hp.map Prod.snd).pairwise_iff (R := Apart) (fun h => h.symm)).1 h.apart
  uses := fun p hm => h.uses p (hp.mem_iff.2 hm)
  reg := fun p hm => h.reg p (hp.mem_iff.2 hm)
  valid := fun p hm => h.valid p (hp.mem_iff.2 hm)

theorem Waits.unique {N : Nat} {live : List (Nat × UGate)} {pool : List UGate} {w : List (Option Nat)} (h : Waits N live pool w)
    {i : Nat} {g g' : UGate} (h1 : (i, g) ∈ live) (h2 : (i, g') ∈ live) : g = g' := by
  have a := h.pool _ h1
  have b := h.pool _ h2
  dsimp only at a b
  rw [a] at b
  exact Option.some.inj b

/-- the table after pushing the head -/
theorem Waits.push {N : Nat} {i : Nat} {g : UGate} {rest : List (Nat × UGate)} {pool : List UGate} {w w' : List (Option Nat)}
    (h : Waits N ((i, g) :: rest) pool w) (hw : markAll w (Item.operandList (.inl (.det g))) none = .ok w') : Waits N rest pool w' := by
  obtain ⟨e1, e2, e3⟩ := markAll_spec hw
  have ap := List.pairwise_cons.1 (show ((g :: rest.map Prod.snd).Pairwise Apart) from h.apart)
  refine ⟨e1.trans h.len, fun p hp => h.pool p (List.mem_cons_of_mem _ hp), fun q k => ?_, (List.nodup_cons.1 h.nodup).2, ap.2,
    fun p hp => h.uses p (List.mem_cons_of_mem _ hp), fun p hp => h.reg p (List.mem_cons_of_mem _ hp),
    fun p hp => h.valid p (List.mem_cons_of_mem _ hp)⟩
  rw [e3]
  by_cases hq : UGate.uses g q
  · rw [if_pos (mem_itemList.2 hq)]
    constructor
    · intro h; simp at h
    · rintro ⟨g', hm, hu⟩
      exact absurd hu (ap.1 g' (List.mem_map.2 ⟨_, hm, rfl⟩) q hq)
  · rw [if_neg fun h => hq (mem_itemList.1 h), h.table]
    constructor
    · rintro ⟨g', hm, hu⟩
      rcases List.mem_cons.1 hm with e | hm
      · injection e with e1 e2
        subst e2
        exact absurd hu hq
      · exact ⟨g', hm, hu⟩
    · rintro ⟨g', hm, hu⟩
      exact ⟨g', List.mem_cons_of_mem _ hm, hu⟩

/-- the table after a gate has been put into the pool that uses all qubits of the dropped gates and none of the others -/
theorem Waits.wait {N : Nat} {live dropped rest : List (Nat × UGate)} {pool : List UGate} {w w' : List (Option Nat)}
    (h : Waits N live pool w) (hp : live.Perm (dropped ++ rest)) {m : UGate} (hdrop : ∀ p ∈ dropped, ∀ q, UGate.uses p.2 q → UGate.uses m q)
    (hrest : ∀ p ∈ rest, Apart p.2 m) (hv : Valid m) (hr : InReg N m) (hu : ∃ q, UGate.uses m q)
    (hw : markAll w m.operandQubitList (some pool.length) = .ok w') : Waits N (rest ++ [(pool.length, m)]) (pool ++ [m]) w' := by
  replace h := h.perm hp
  obtain ⟨e1, e2, e3⟩ := markAll_spec hw
  have hlt : ∀ p ∈ dropped ++ rest, p.1 < pool.length := fun p hp => by
    have := h.pool p hp
    rw [List.getElem?_eq_some_iff] at this
    exact this.1
  have hsub : ∀ p ∈ rest, p ∈ dropped ++ rest := fun p hp => List.mem_append_right _ hp
  refine ⟨e1.trans h.len, ?_, fun q k => ?_, ?_, ?_, ?_, ?_, ?_⟩
  · intro p hp
    rcases List.mem_append.1 hp with hp | hp
    · rw [List.getElem?_append_left (hlt p (hsub p hp))]
      exact h.pool p (hsub p hp)
    · rw [List.mem_singleton.1 hp]
      simp
  · rw [e3]
    by_cases hq : UGate.uses m q
    · rw [if_pos (mem_operandList.2 hq)]
      constructor
      · intro hk
        injection hk with hk
        injection hk with hk
        subst hk
        exact ⟨m, by simp, hq⟩
      · rintro ⟨g', hm, hu⟩
        rcases List.mem_append.1 hm with hm | hm
        · exact absurd hq (hrest _ hm q hu)
        · rw [List.mem_singleton] at hm
          injection hm with h1 h2
          rw [h1]
    · rw [if_neg fun h => hq (mem_operandList.1 h), h.table]
      constructor
      · rintro ⟨g', hm, hu⟩
        rcases List.mem_append.1 hm with hm | hm
        · exact absurd (hdrop _ hm q hu) hq
        · exact ⟨g', List.mem_append_left _ hm, hu⟩
      · rintro ⟨g', hm, hu⟩
        rcases List.mem_append.1 hm with hm | hm
        · exact ⟨g', hsub _ hm, hu⟩
        · rw [List.mem_singleton] at hm
          injection hm with h1 h2
          rw [h2] at hu
          exact absurd hu hq
  · rw [List.map_append, List.nodup_append]
    have hn := h.nodup
    rw [List.map_append, List.nodup_append] at hn
    refine ⟨hn.2.1, by simp, fun a ha b hb => ?_⟩
    obtain ⟨p, hp, rfl⟩ := List.mem_map.1 ha
    have := hlt p (hsub p hp)
    simp at hb
    omega
  · have ha := h.apart
    rw [List.map_append, List.pairwise_append] at ha ⊢
    refine ⟨ha.2.1, by simp, fun a ha b hb => ?_⟩
    obtain ⟨p, hp, rfl⟩ := List.mem_map.1 ha
    simp at hb
    rw [hb]
    exact hrest p hp
  · intro p hp
    rcases List.mem_append.1 hp with hp | hp
    · exact h.uses p (hsub p hp)
    · rw [List.mem_singleton.1 hp]; exact hu
  · intro p hp
    rcases List.mem_append.1 hp with hp | hp
    · exact h.reg p (hsub p hp)
    · rw [List.mem_singleton.1 hp]; exact hr
  · intro p hp
    rcases List.mem_append.1 hp with hp | hp
    · exact h.valid p (hsub p hp)
    · rw [List.mem_singleton.1 hp]; exact hv

/-! ## the invariant of the loop -/

/-- an entry of the new circuit does what the action says -/
def Realises (all : List Line) (N : Nat) : Act → Option Condition × Item → Prop
  | .line l, p => l ∈ all ∧ p.1 = l.cond ∧ l.instr.build = .ok p.2
  | .gate g, p => p = (none, .inl (.det g)) ∧ Valid g ∧ InReg N g
  | .phase _, _ => False

/-- some line is a measurement -/
def Measures (all : List Line) : Prop := ∃ l ∈ all, ∃ q cbit reset, l.instr = .measure q cbit reset

def gatesOf (live : List (Nat × UGate)) : List Act := live.map fun p => .gate p.2

theorem gatesOf_eq (live : List (Nat × UGate)) : gatesOf live = (live.map Prod.snd).map Act.gate := by
  unfold gatesOf; rw [List.map_map]; rfl

theorem gatesOf_append (a b : List (Nat × UGate)) : gatesOf (a ++ b) = gatesOf a ++ gatesOf b := List.map_append

variable {n N : Nat} {θ : String → Option ℝ} {all : List Line}

structure OptInv (n N : Nat) (θ : String → Option ℝ) (all pre : List Line) (s : OptState) (acts : List Act) (live : List (Nat × UGate)) : Prop where
  len : s.conds.length = s.gates.length
  real : List.Forall₂ (Realises all N) acts (s.conds.zip s.gates)
  le : Le n θ (pre.map .line) (acts ++ gatesOf live ++ [.phase s.phase])
  waits : Waits N live s.pool s.waiting
  norm : Measures all → ∀ p ∈ live, KeepsNorm n p.2

theorem le_perm_live {live live' : List (Nat × UGate)} {pool : List UGate} {w : List (Option Nat)} (h : Waits N live pool w) (hN : N ≤ n)
    (hp : live.Perm live') : Le n θ (gatesOf live) (gatesOf live') := by
  rw [gatesOf_eq, gatesOf_eq]
  refine le_perm (hp.map _) h.apart ?_
  intro g hg q hq
  obtain ⟨p, hp, rfl⟩ := List.mem_map.1 hg
  exact lt_of_lt_of_le (h.reg p hp q hq) hN

theorem OptInv.perm {pre : List Line} {s : OptState} {acts : List Act} {live live' : List (Nat × UGate)}
    (h : OptInv n N θ all pre s acts live) (hN : N ≤ n) (hp : live.Perm live') : OptInv n N θ all pre s acts live' where
  len := h.len
  real := h.real
  le := h.le.trans (Le.right _ (Le.left _ (le_perm_live h.waits hN hp)))
  waits := h.waits.perm hp
  norm := fun hm p hmem => h.norm hm p (hp.mem_iff.2 hmem)

theorem zip_snoc {α β : Type} {as : List α} {bs : List β} (h : as.length = bs.length) (a : α) (b : β) :
    (as ++ [a]).zip (bs ++ [b]) = as.zip bs ++ [(a, b)] := by
  rw [List.zip_append h]; rfl

theorem forall2_snoc {α β : Type} {R : α → β → Prop} {as : List α} {bs : List β} (h : List.Forall₂ R as bs) {a : α} {b : β} (hab : R a b) :
    List.Forall₂ R (as ++ [a]) (bs ++ [b]) := by
  induction h with
  | nil => exact .cons hab .nil
  | cons h1 _ ih => exact .cons h1 ih

/-- pushing a live gate -/
theorem OptInv.push {pre : List Line} {s s' : OptState} {acts : List Act} {i : Nat} {g : UGate} {rest : List (Nat × UGate)}
    (h : OptInv n N θ all pre s acts ((i, g) :: rest)) (hs : s.push (.inl (.det g)) none = .ok s') :
    OptInv n N θ all pre s' (acts ++ [.gate g]) rest ∧ s'.pool = s.pool ∧ s'.log = s.log := by
  obtain ⟨w, hw, hs⟩ := bind_ok (show (do
    let w ← markAll s.waiting (Item.operandList (.inl (.det g))) none
    pure { s with waiting := w, gates := s.gates ++ [Sum.inl (Gate.det g)], conds := s.conds ++ [none] }) = .ok s' from hs)
  cases hs
  refine ⟨⟨by simp [h.len], ?_, ?_, h.waits.push hw, fun hm p hp => h.norm hm p (List.mem_cons_of_mem _ hp)⟩, rfl, rfl⟩
  · dsimp only
    rw [zip_snoc h.len]
    exact forall2_snoc h.real ⟨rfl, h.waits.valid (i, g) List.mem_cons_self, h.waits.reg (i, g) List.mem_cons_self⟩
  · have := h.le
    rw [List.append_assoc acts [Act.gate g]]
    exact this

theorem OptInv.pushAll {pre : List Line} {is : List Nat} {s s' : OptState} {acts : List Act} {live : List (Nat × UGate)}
    (h : OptInv n N θ all pre s acts live) (hN : N ≤ n) (hnd : is.Nodup) (hi : ∀ i ∈ is, ∃ g, (i, g) ∈ live) (hs : s.pushAll is = .ok s') :
    ∃ acts' live', OptInv n N θ all pre s' acts' live' ∧ (∀ p ∈ live', p ∈ live ∧ p.1 ∉ is) ∧ s'.log = s.log ∧ s'.phase = s.phase := by
  induction is generalizing s acts live with
  | nil =>
    cases hs
    exact ⟨acts, live, h, fun p hp => ⟨hp, by simp⟩, rfl, rfl⟩
  | cons i is ih =>
    unfold OptState.pushAll at hs
    rw [List.foldlM_cons] at hs
    obtain ⟨s1, hs1, hs⟩ := bind_ok hs
    obtain ⟨g, hg, hs1⟩ := bind_ok hs1
    rw [elemAt_ok] at hg
    obtain ⟨g', hm⟩ := hi i List.mem_cons_self
    have := h.waits.pool (i, g') hm
    dsimp only at this
    rw [hg] at this
    obtain rfl := Option.some.inj this
    obtain ⟨l1, l2, rfl⟩ := List.append_of_mem hm
    have hperm : (l1 ++ (i, g) :: l2).Perm ((i, g) :: (l1 ++ l2)) := List.perm_middle
    have hnew := h.perm hN hperm
    obtain ⟨h1, h2, h3⟩ := hnew.push hs1
    have hph : s1.phase = s.phase := by
      obtain ⟨w, -, e⟩ := bind_ok (show (do
        let w ← markAll s.waiting (Item.operandList (.inl (.det g))) none
        pure { s with waiting := w, gates := s.gates ++ [Sum.inl (Gate.det g)], conds := s.conds ++ [none] }) = .ok s1 from hs1)
      cases e; rfl
    have hni : ∀ p ∈ l1 ++ l2, p.1 ≠ i := by
      have := (List.nodup_cons.1 (show (i :: (l1 ++ l2).map Prod.fst).Nodup from hnew.waits.nodup)).1
      intro p hp e
      exact this (List.mem_map.2 ⟨p, hp, e⟩)
    obtain ⟨hin, hnd'⟩ := List.nodup_cons.1 hnd
    obtain ⟨acts', live', a, b, c, d⟩ := ih h1 hnd' (by
      intro k hk
      obtain ⟨gk, hgk⟩ := hi k (List.mem_cons_of_mem _ hk)
      refine ⟨gk, ?_⟩
      rcases List.mem_cons.1 (hperm.mem_iff.1 hgk) with e | e
      · injection e with e1 e2
        subst e1
        exact absurd hk hin
      · exact e) hs
    refine ⟨acts', live', a, fun p hp => ?_, c.trans h3, d.trans hph⟩
    obtain ⟨b1, b2⟩ := b p hp
    refine ⟨hperm.mem_iff.2 (List.mem_cons_of_mem _ b1), ?_⟩
    rw [List.mem_cons, not_or]
    exact ⟨hni p b1, b2⟩

/-! ## the cases of the body -/

theorem le_acts_line {pre : List Line} {s : OptState} {acts : List Act} {live : List (Nat × UGate)}
    (h : OptInv n N θ all pre s acts live) (hn : n < 64) {l : Line} {it : Item} (hb : l.instr.build = .ok it)
    (hok : l.instr.OK) (hq : ∀ q ∈ l.instr.qubits, q < n) :
    Le n θ ((pre ++ [l]).map .line) (acts ++ gatesOf live ++ [.line l] ++ [.phase s.phase]) := by
  rw [List.map_append]
  refine (Le.right _ h.le).trans ?_
  rw [List.append_assoc, List.append_assoc (acts ++ gatesOf live)]
  exact Le.left _ (le_phase_line hn hb hok hq)

/-- entries that are never merged -/
theorem OptInv.pushItem {pre : List Line} {s s' : OptState} {acts : List Act} {live : List (Nat × UGate)}
    (h : OptInv n N θ all pre s acts live) (hN : N ≤ n) (hn : n < 64) {l : Line} {it : Item} (hl : l ∈ all) (hb : l.instr.build = .ok it)
    (hok : l.instr.OK) (hq : ∀ q ∈ l.instr.qubits, q < n) (hs : s.pushItem it l.cond = .ok s') :
    (∃ acts' live', OptInv n N θ all (pre ++ [l]) s' acts' live') ∧ s'.log = s.log := by
  obtain ⟨is, his, hs⟩ := bind_ok (show (do
    let is ← s.waitingIndices it
    let s ← s.pushAll is
    s.push it l.cond) = .ok s' from hs)
  obtain ⟨s1, hs1, hs⟩ := bind_ok hs
  obtain ⟨hnd, hmem⟩ := waitingIndices_spec his
  obtain ⟨acts1, live1, h1, h2, h3, h4⟩ := h.pushAll hN hnd (fun i hi => by
    obtain ⟨q, -, hq⟩ := (hmem i).1 hi
    obtain ⟨g, hg, -⟩ := (h.waits.table q i).1 hq
    exact ⟨g, hg⟩) hs1
  obtain ⟨w, hw, hs⟩ := bind_ok (show (do
    let w ← markAll s1.waiting (Item.operandList it) none
    pure { s1 with waiting := w, gates := s1.gates ++ [it], conds := s1.conds ++ [l.cond] }) = .ok s' from hs)
  cases hs
  obtain ⟨e1, e2, e3⟩ := markAll_spec hw
  have hop : ∀ q, q ∈ Item.operandList it ↔ q ∈ l.instr.qubits := fun q => mem_maskToVector.trans (item_mask hb hok q)
  have hfree : ∀ p ∈ live1, ∀ q, UGate.uses p.2 q → q ∉ l.instr.qubits := by
    intro p hp q hu hq'
    obtain ⟨hp1, hp2⟩ := h2 p hp
    exact hp2 ((hmem p.1).2 ⟨q, (hop q).2 hq', (h.waits.table q p.1).2 ⟨p.2, hp1, hu⟩⟩)
  have hW := h1.waits
  refine ⟨⟨acts1 ++ [.line l], live1, ⟨by simp [h1.len], ?_, ?_, ⟨e1.trans hW.len, hW.pool, fun q i => ?_, hW.nodup, hW.apart, hW.uses, hW.reg, hW.valid⟩, h1.norm⟩⟩, h3⟩
  · dsimp only
    rw [zip_snoc h1.len]
    exact forall2_snoc h1.real ⟨hl, rfl, hb⟩
  · refine (le_acts_line h1 hn hb hok hq).trans (Le.right _ ?_)
    rw [List.append_assoc, List.append_assoc]
    refine Le.left _ ?_
    rw [gatesOf_eq]
    refine (le_move ?_).trans (Le.refl _)
    intro g hg
    obtain ⟨p, hp, rfl⟩ := List.mem_map.1 hg
    refine le_gate_line hn (fun q hu => lt_of_lt_of_le (hW.reg p hp q hu) hN) hb hok hq (hfree p hp) ?_
    rintro ⟨q, cbit, reset, e⟩
    exact h1.norm ⟨l, hl, q, cbit, reset, e⟩ p hp
  · dsimp only
    rw [e3]
    by_cases hq' : q ∈ Item.operandList it
    · rw [if_pos hq']
      constructor
      · intro h; simp at h
      · rintro ⟨g, hg, hu⟩
        exact absurd ((hop q).1 hq') (hfree _ hg q hu)
    · rw [if_neg hq']
      exact hW.table q i

/-- the merged gate uses all qubits of the two gates -/
def KeepsQubits (p : UGate × UGate) : Prop := ∀ g φ, mergeGate p.1 p.2 = .ok (g, φ) → ∀ q, UGate.uses p.1 q ∨ UGate.uses p.2 q → UGate.uses g q

/-- the pair does not lose a tiny phase -/
def NotTiny (p : UGate × UGate) : Prop := ∀ δ, |δ| < 1e-12 → Tiny p.1 p.2 δ → δ = 0

/-- the merge keeps all qubits and loses no phase -/
def GoodMerge (p : UGate × UGate) : Prop := KeepsQubits p ∧ NotTiny p

theorem notPerm_of_merge {g1 g2 g : UGate} {φ : ℝ} (h : mergeGate g1 g2 = .ok (g, φ)) : NotPerm g1 ∧ NotPerm g2 := by
  constructor
  · rintro p rfl
    unfold mergeGate at h
    cases h
  · rintro p rfl
    cases g1 <;> unfold mergeGate at h <;> cases h

theorem GoodMerge.merges {g1 g2 g : UGate} {φ : ℝ} (hg : GoodMerge (g1, g2)) (h : mergeGate g1 g2 = .ok (g, φ)) (hv1 : Valid g1) (hv2 : Valid g2)
    {N : Nat} (hN : N < 64) (hr1 : InReg N g1) (hr2 : InReg N g2) : Merges g1 g2 g φ 0 := by
  obtain ⟨hp1, hp2⟩ := notPerm_of_merge h
  obtain ⟨g', φ', δ, hm, hM, hδ, ht⟩ := mergeGate_ok hv1 hv2 hp1 hp2 ⟨N, hN, fun q h => h.elim (hr1 q) (hr2 q)⟩
  rw [h] at hm
  injection hm with hm
  injection hm with e1 e2
  subst e1 e2
  have h0 : δ = 0 := by
    by_contra hne
    exact hne (hg.2 δ hδ (ht hne))
  rwa [h0] at hM

theorem onState_eq_of {f f' : (U64 → ℂ) → U64 → ℂ} (h : f = f') : onState (2 ^ n) f = onState (2 ^ n) f' := by rw [h]

theorem keepsNorm_merge {g1 g2 g : UGate} {φ : ℝ} (hm : Merges g1 g2 g φ 0) (h1 : KeepsNorm n g1) (h2 : KeepsNorm n g2) : KeepsNorm n g := by
  intro ψ
  have h := (h2 (opOf g1 ψ)).trans (h1 ψ)
  rw [← h]
  unfold normSq
  refine Finset.sum_congr rfl fun j _ => ?_
  rw [hm.op]
  have : (if CtrlOK (UGate.cs g1) j then cis 0 * opOf g ψ j else opOf g ψ j) = opOf g ψ j := by split <;> simp [cis_zero]
  rw [this, Complex.normSq_mul, normSq_cis, one_mul]

/-- what the merging loop has reached -/
structure MergeInv (n N : Nat) (θ : String → Option ℝ) (all pre : List Line) (s a : OptState) (g m : UGate) (acts : List Act)
    (live dropped rest : List (Nat × UGate)) : Prop where
  pool : a.pool = s.pool
  waiting : a.waiting = s.waiting
  gates : a.gates = s.gates
  conds : a.conds = s.conds
  perm : live.Perm (dropped ++ rest)
  le : Le n θ (pre.map .line) (acts ++ gatesOf rest ++ [.gate m] ++ [.phase a.phase])
  valid : Valid m
  reg : InReg N m
  keeps : ∀ q, UGate.uses g q → UGate.uses m q
  drops : ∀ p ∈ dropped, ∀ q, UGate.uses p.2 q → UGate.uses m q
  from_ : ∀ q, UGate.uses m q → UGate.uses g q ∨ ∃ p ∈ dropped, UGate.uses p.2 q
  norm : Measures all → KeepsNorm n m

/-- one step of the merging loop -/
theorem MergeInv.step {pre : List Line} {s a : OptState} {acts : List Act} {live dropped l1 l2 : List (Nat × UGate)} {g m p m' : UGate} {i : Nat}
    {φ : ℝ} (hW : Waits N live s.pool s.waiting) (hnl : Measures all → ∀ p ∈ live, KeepsNorm n p.2) (hN : N ≤ n)
    (h : MergeInv n N θ all pre s a g m acts live dropped (l1 ++ (i, p) :: l2))
    (hkeep : ∀ q, UGate.uses p q ∨ UGate.uses m q → UGate.uses m' q) (hM : Merges p m m' φ 0) :
    MergeInv n N θ all pre s { a with phase := a.phase + φ, log := a.log ++ [(p, m)] } g m' acts live (dropped ++ [(i, p)]) (l1 ++ l2) := by
  have hlv : (i, p) ∈ live := h.perm.mem_iff.2 (List.mem_append_right _ (by simp))
  have hperm : (l1 ++ (i, p) :: l2).Perm ((l1 ++ l2) ++ [(i, p)]) :=
    List.perm_middle.trans (List.perm_append_comm (l₁ := [(i, p)]))
  have hWr : Waits N (dropped ++ (l1 ++ (i, p) :: l2)) s.pool s.waiting := hW.perm h.perm
  have hregp : InReg N p := hW.reg (i, p) hlv
  have hle : Le n θ (gatesOf (l1 ++ (i, p) :: l2)) (gatesOf (l1 ++ l2) ++ [.gate p]) := by
    have hap := hWr.apart
    rw [List.map_append, List.pairwise_append] at hap
    have := le_perm (n := n) (θ := θ) (hperm.map Prod.snd) hap.2.1 (by
      intro g hg q hq
      obtain ⟨x, hx, rfl⟩ := List.mem_map.1 hg
      exact lt_of_lt_of_le (hWr.reg x (List.mem_append_right _ hx) q hq) hN)
    rw [gatesOf_eq, gatesOf_eq]
    rw [List.map_append (f := Prod.snd) (l₂ := [(i, p)]), List.map_append (f := Act.gate)] at this
    exact this
  refine ⟨h.pool, h.waiting, h.gates, h.conds, ?_, ?_, hM.valid, ?_, ?_, ?_, ?_, ?_⟩
  · refine h.perm.trans ?_
    rw [List.append_assoc]
    exact (List.Perm.refl dropped).append List.perm_middle
  · refine h.le.trans ?_
    have s1 : Le n θ (acts ++ gatesOf (l1 ++ (i, p) :: l2) ++ [.gate m] ++ [.phase a.phase])
        (acts ++ (gatesOf (l1 ++ l2) ++ [.gate p]) ++ [.gate m] ++ [.phase a.phase]) :=
      Le.right _ (Le.right _ (Le.left _ hle))
    refine s1.trans ?_
    have s2 : Le n θ ([.gate p, .gate m] ++ [.phase a.phase]) ([.gate m'] ++ [.phase (a.phase + φ)]) := by
      refine (Le.right _ (le_merge hM fun q hq => lt_of_lt_of_le (h.reg q hq) hN)).trans ?_
      have := Le.left (n := n) (θ := θ) [.gate m'] (le_phase_phase (n := n) (θ := θ) φ a.phase)
      rw [add_comm a.phase φ]
      exact this
    have := Le.left (n := n) (θ := θ) (acts ++ gatesOf (l1 ++ l2)) s2
    rw [← List.append_assoc acts, List.append_assoc (acts ++ gatesOf (l1 ++ l2)), List.append_assoc (acts ++ gatesOf (l1 ++ l2)),
      List.append_assoc (acts ++ gatesOf (l1 ++ l2))]
    exact this
  · intro q hq
    rcases hM.qubits q hq with h1 | h1
    · exact hregp q h1
    · exact h.reg q h1
  · intro q hq
    exact hkeep q (.inr (h.keeps q hq))
  · intro x hx q hq
    rcases List.mem_append.1 hx with hx | hx
    · exact hkeep q (.inr (h.drops x hx q hq))
    · rw [List.mem_singleton.1 hx] at hq
      exact hkeep q (.inl hq)
  · intro q hq
    rcases hM.qubits q hq with h1 | h1
    · exact .inr ⟨(i, p), List.mem_append_right _ (by simp), h1⟩
    · rcases h.from_ q h1 with h2 | ⟨x, hx, h2⟩
      · exact .inl h2
      · exact .inr ⟨x, List.mem_append_left _ hx, h2⟩
  · intro hme
    exact keepsNorm_merge hM (hnl hme (i, p) hlv) (h.norm hme)

/-- the body of the merging loop -/
noncomputable def mergeStep (a : OptState × UGate) (i : Nat) : Res (OptState × UGate) := do
  let p ← elemAt a.1.pool i
  let r ← mergeGate p a.2
  pure ({ a.1 with phase := a.1.phase + r.2, log := a.1.log ++ [(p, a.2)] }, r.1)

theorem mergeStep_ok {a b : OptState × UGate} {i : Nat} (h : mergeStep a i = .ok b) :
    ∃ p m φ, a.1.pool[i]? = some p ∧ mergeGate p a.2 = .ok (m, φ) ∧
      b = ({ a.1 with phase := a.1.phase + φ, log := a.1.log ++ [(p, a.2)] }, m) := by
  obtain ⟨p, hp, h⟩ := bind_ok h
  obtain ⟨⟨m, φ⟩, hm, h⟩ := bind_ok h
  cases h
  exact ⟨p, m, φ, elemAt_ok.1 hp, hm, rfl⟩

theorem mergeAll_log {is : List Nat} {a r : OptState × UGate} (h : is.foldlM mergeStep a = .ok r) : ∃ t, r.1.log = a.1.log ++ t := by
  induction is generalizing a with
  | nil => cases h; exact ⟨[], by simp⟩
  | cons i is ih =>
    rw [List.foldlM_cons] at h
    obtain ⟨b, hb, h⟩ := bind_ok h
    obtain ⟨p, m, φ, -, -, rfl⟩ := mergeStep_ok hb
    obtain ⟨t, ht⟩ := ih h
    exact ⟨_, by rw [ht, List.append_assoc]⟩

theorem mergeAll_spec {pre : List Line} {s : OptState} {acts : List Act} {live : List (Nat × UGate)} (hW : Waits N live s.pool s.waiting)
    (hnl : Measures all → ∀ p ∈ live, KeepsNorm n p.2) (hN : N ≤ n) (hn : n < 64) {g : UGate} {is : List Nat} :
    ∀ {a : OptState × UGate} {dropped rest : List (Nat × UGate)}, MergeInv n N θ all pre s a.1 g a.2 acts live dropped rest →
      is.Nodup → (∀ i ∈ is, ∃ g, (i, g) ∈ rest) → ∀ {r : OptState × UGate}, is.foldlM mergeStep a = .ok r →
      (∀ p ∈ r.1.log, GoodMerge p) →
      ∃ dropped' rest', MergeInv n N θ all pre s r.1 g r.2 acts live dropped' rest' ∧ (∀ p ∈ rest', p ∈ rest ∧ p.1 ∉ is) := by
  induction is with
  | nil =>
    intro a dropped rest h _ _ r hr _
    cases hr
    exact ⟨dropped, rest, h, fun p hp => ⟨hp, by simp⟩⟩
  | cons i is ih =>
    intro a dropped rest h hnd hi r hr hgood
    rw [List.foldlM_cons] at hr
    obtain ⟨b, hb, hr⟩ := bind_ok hr
    obtain ⟨p, m', φ, hp, hmg, rfl⟩ := mergeStep_ok hb
    obtain ⟨t, ht⟩ := mergeAll_log hr
    have hg := hgood (p, a.2) (by rw [ht]; simp)
    have hkeep := hg.1 m' φ hmg
    obtain ⟨p', hmem⟩ := hi i List.mem_cons_self
    have hlv : (i, p') ∈ live := h.perm.mem_iff.2 (List.mem_append_right _ hmem)
    have hpp := hW.pool (i, p') hlv
    rw [h.pool] at hp
    dsimp only at hpp
    rw [hp] at hpp
    obtain rfl := Option.some.inj hpp
    obtain ⟨l1, l2, rfl⟩ := List.append_of_mem hmem
    have hM := hg.merges hmg (hW.valid (i, p) hlv) h.valid (lt_of_le_of_lt hN hn) (hW.reg (i, p) hlv) h.reg
    have hnd2 : ((dropped ++ (l1 ++ (i, p) :: l2)).map Prod.fst).Nodup := (hW.perm h.perm).nodup
    have hni : ∀ x ∈ l1 ++ l2, x.1 ≠ i := by
      intro x hx e
      rw [List.map_append, List.nodup_append] at hnd2
      have := ((List.perm_middle (a := (i, p)) (l₁ := l1) (l₂ := l2)).map Prod.fst).nodup_iff.1 hnd2.2.1
      exact (List.nodup_cons.1 (show (i :: (l1 ++ l2).map Prod.fst).Nodup from this)).1 (List.mem_map.2 ⟨x, hx, e⟩)
    obtain ⟨hin, hnd'⟩ := List.nodup_cons.1 hnd
    have hstep := MergeInv.step hW hnl hN h hkeep hM
    obtain ⟨dropped', rest', e1, e2⟩ := ih hstep hnd' (by
        intro k hk
        obtain ⟨gk, hgk⟩ := hi k (List.mem_cons_of_mem _ hk)
        refine ⟨gk, ?_⟩
        rcases List.mem_cons.1 (List.perm_middle.mem_iff.1 hgk) with e | e
        · injection e with e1 e2
          rw [e1] at hk
          exact absurd hk hin
        · exact e) hr hgood
    refine ⟨dropped', rest', e1, fun x hx => ?_⟩
    obtain ⟨b1, b2⟩ := e2 x hx
    refine ⟨List.perm_middle.mem_iff.2 (List.mem_cons_of_mem _ b1), ?_⟩
    rw [List.mem_cons, not_or]
    exact ⟨hni x b1, b2⟩

end Verif.Proofs
