import Verif.Proofs.CircuitRun
import Verif.Spec.Depth

/-! # Proofs about `calculate_depth` -/

namespace Verif.Proofs
open Verif Verif.Spec Verif.Model
attribute [-simp] BitVec.getLsbD_eq_getElem

theorem maxStep_spec {F qs : List Nat} (hq : ∀ q ∈ qs, q < F.length) (m : Nat) :
    ∃ m', maxStep F qs m = .ok m' ∧ m ≤ m' ∧ (∀ q ∈ qs, ∀ v, F[q]? = some v → v ≤ m') ∧ (m' = m ∨ ∃ q ∈ qs, F[q]? = some m') := by
  induction qs generalizing m with
  | nil => exact ⟨m, rfl, le_rfl, by simp, Or.inl rfl⟩
  | cons q qs ih =>
    have hlt : q < F.length := hq q List.mem_cons_self
    have hget := List.getElem?_eq_getElem hlt
    obtain ⟨m', h1, h2, h3, h4⟩ := ih (fun q hq' => hq q (List.mem_cons_of_mem _ hq')) (if m < F[q] then F[q] else m)
    refine ⟨m', ?_, ?_, ?_, ?_⟩
    · unfold maxStep
      rw [List.foldlM_cons, hget]
      exact h1
    · split at h2 <;> omega
    · intro p hp v hv
      rcases List.mem_cons.1 hp with rfl | hp
      · rw [hget] at hv
        cases hv
        split at h2 <;> omega
      · exact h3 p hp v hv
    · rcases h4 with h4 | ⟨p, hp, h4⟩
      · split at h4
        · right; exact ⟨q, List.mem_cons_self, by rw [hget, h4]⟩
        · left; exact h4
      · right; exact ⟨p, List.mem_cons_of_mem _ hp, h4⟩

theorem fillStep_spec {F qs : List Nat} (hq : ∀ q ∈ qs, q < F.length) (v : Nat) :
    ∃ F', fillStep v qs F = .ok F' ∧ F'.length = F.length ∧ ∀ q, q < F.length → F'[q]? = if q ∈ qs then some v else F[q]? := by
  induction qs generalizing F with
  | nil => exact ⟨F, rfl, rfl, by simp⟩
  | cons q qs ih =>
    have hlt : q < F.length := hq q List.mem_cons_self
    obtain ⟨F', h1, h2, h3⟩ := ih (F := F.set q v) (fun p hp => by rw [List.length_set]; exact hq p (List.mem_cons_of_mem _ hp))
    refine ⟨F', ?_, by rw [h2, List.length_set], ?_⟩
    · unfold fillStep
      rw [List.foldlM_cons, if_pos hlt]
      exact h1
    · intro p hp
      rw [h3 p (by rw [List.length_set]; exact hp)]
      by_cases hpq : p ∈ qs
      · simp [hpq]
      · by_cases e : p = q
        · subst e; simp [hpq, hp]
        · rw [if_neg hpq, if_neg (by simp [e, hpq]), List.getElem?_set_ne (fun h => e h.symm)]

/-- one iteration of the loop for a gate on the qubits `A` -/
theorem depthStep_spec {F A cs ts : List Nat} {g : Item} (hc : Item.controlList g = .ok cs) (ht : Item.targetList g = .ok ts)
    (hA : ∀ q, q ∈ A ↔ q ∈ cs ∨ q ∈ ts) (hq : ∀ q ∈ A, q < F.length) :
    ∃ m F', depthStep F g = .ok F' ∧ F'.length = F.length ∧ (∀ q ∈ A, ∀ v, F[q]? = some v → v ≤ m) ∧
      (m = 0 ∨ ∃ q ∈ A, F[q]? = some m) ∧ ∀ q, q < F.length → F'[q]? = if q ∈ A then some (m + 1) else F[q]? := by
  obtain ⟨m1, h1, -, h1b, h1c⟩ := maxStep_spec (F := F) (qs := cs) (fun q h => hq q ((hA q).2 (Or.inl h))) 0
  obtain ⟨m, h2, h2a, h2b, h2c⟩ := maxStep_spec (F := F) (qs := ts) (fun q h => hq q ((hA q).2 (Or.inr h))) m1
  obtain ⟨F1, h3, h3a, h3b⟩ := fillStep_spec (F := F) (qs := cs) (fun q h => hq q ((hA q).2 (Or.inl h))) (m + 1)
  obtain ⟨F', h4, h4a, h4b⟩ := fillStep_spec (F := F1) (qs := ts) (fun q h => by rw [h3a]; exact hq q ((hA q).2 (Or.inr h))) (m + 1)
  refine ⟨m, F', ?_, by rw [h4a, h3a], ?_, ?_, ?_⟩
  · unfold depthStep
    rw [hc, ok_bind, ht, ok_bind, h1, ok_bind, h2, ok_bind, h3, ok_bind, h4]
  · intro q h v hv
    rcases (hA q).1 h with h | h
    · exact le_trans (h1b q h v hv) h2a
    · exact h2b q h v hv
  · rcases h2c with rfl | ⟨q, h, hv⟩
    · exact h1c.imp id fun ⟨q, h, hv⟩ => ⟨q, (hA q).2 (Or.inl h), hv⟩
    · exact Or.inr ⟨q, (hA q).2 (Or.inr h), hv⟩
  · intro q hlt
    rw [h4b q (by rw [h3a]; exact hlt), h3b q hlt]
    by_cases h1 : q ∈ ts
    · rw [if_pos h1, if_pos ((hA q).2 (Or.inr h1))]
    · by_cases h2 : q ∈ cs
      · rw [if_neg h1, if_pos h2, if_pos ((hA q).2 (Or.inl h2))]
      · rw [if_neg h1, if_neg h2, if_neg fun h => ((hA q).1 h).elim h2 h1]

/-- `v` is the length of a longest chain ending in a gate on `q` -/
def EndsWith (qs : List (List Nat)) (q v : Nat) : Prop :=
  (v = 0 ∨ ∃ c a, IsGateChain qs (c ++ [a]) ∧ q ∈ a ∧ (c ++ [a]).length = v) ∧
  ∀ c a, IsGateChain qs (c ++ [a]) → q ∈ a → (c ++ [a]).length ≤ v

theorem chain_last {P c : List (List Nat)} {A a : List Nat} (h : IsGateChain (P ++ [A]) (c ++ [a])) :
    IsGateChain P (c ++ [a]) ∨ (a = A ∧ IsGateChain P c) := by
  obtain ⟨l1, l2, he, h1, h2⟩ := List.sublist_append_iff.1 h.sub
  have h2' : l2 = [] ∨ l2 = [A] := by
    cases l2 with
    | nil => exact Or.inl rfl
    | cons x l2 =>
      right
      have := h2.length_le
      have hl : l2 = [] := by
        cases l2 with
        | nil => rfl
        | cons y l => simp at this
      subst hl
      have hx : x ∈ [A] := h2.subset (by simp)
      simpa using hx
  rcases h2' with rfl | rfl
  · left
    rw [List.append_nil] at he
    exact ⟨he ▸ h1, h.nonempty, h.linked⟩
  · right
    obtain ⟨rfl, e⟩ := List.append_inj' he rfl
    simp only [List.cons.injEq, and_true] at e
    exact ⟨e, h1, fun b hb => h.nonempty b (List.mem_append_left _ hb), (List.isChain_append.1 h.linked).1⟩

theorem chain_mono {P c : List (List Nat)} (A : List Nat) (h : IsGateChain P c) : IsGateChain (P ++ [A]) c :=
  ⟨h.sub.trans (List.sublist_append_left _ _), h.nonempty, h.linked⟩

theorem chain_extend {P c : List (List Nat)} {A : List Nat} (h : IsGateChain P c) (hA : A ≠ [])
    (hl : ∀ a ∈ c.getLast?, ∃ q, q ∈ a ∧ q ∈ A) : IsGateChain (P ++ [A]) (c ++ [A]) := by
  refine ⟨List.Sublist.append_right h.sub _, ?_, ?_⟩
  · intro a ha
    rcases List.mem_append.1 ha with ha | ha
    · exact h.nonempty a ha
    · simp only [List.mem_singleton] at ha; rw [ha]; exact hA
  · rw [List.isChain_append]
    refine ⟨h.linked, by simp, ?_⟩
    intro x hx y hy
    simp only [List.head?_cons, Option.mem_def, Option.some.injEq] at hy
    subst hy
    exact hl x hx

/-- the invariant of the loop -/
theorem ends_step {P : List (List Nat)} {A F F' : List Nat} {N m : Nat} (hF : F.length = N)
    (hinv : ∀ q v, q < N → F[q]? = some v → EndsWith P q v) (hA : ∀ q ∈ A, q < N)
    (hm : ∀ q ∈ A, ∀ v, F[q]? = some v → v ≤ m) (hm' : m = 0 ∨ ∃ q ∈ A, F[q]? = some m)
    (hF' : ∀ q, q < F.length → F'[q]? = if q ∈ A then some (m + 1) else F[q]?) :
    ∀ q v, q < N → F'[q]? = some v → EndsWith (P ++ [A]) q v := by
  intro q v hq hv
  rw [hF' q (hF ▸ hq)] at hv
  by_cases hqA : q ∈ A
  · rw [if_pos hqA] at hv
    cases hv
    have hne : A ≠ [] := List.ne_nil_of_mem hqA
    refine ⟨Or.inr ?_, ?_⟩
    · rcases hm' with rfl | ⟨p, hp, hpm⟩
      · exact ⟨[], A, chain_extend ⟨List.nil_sublist _, by simp, by simp⟩ hne (by simp), hqA, by simp⟩
      · rcases (hinv p m (hA p hp) hpm).1 with rfl | ⟨c, a, hc, hpa, hl⟩
        · exact ⟨[], A, chain_extend ⟨List.nil_sublist _, by simp, by simp⟩ hne (by simp), hqA, by simp⟩
        · refine ⟨c ++ [a], A, chain_extend hc hne ?_, hqA, by rw [List.length_append, hl]; rfl⟩
          intro b hb
          rw [List.getLast?_concat] at hb
          simp only [Option.mem_def, Option.some.injEq] at hb
          subst hb
          exact ⟨p, hpa, hp⟩
    · intro c a hc hqa
      rcases chain_last hc with hc' | ⟨rfl, hc'⟩
      · have hlt : q < F.length := hF ▸ hq
        have hget := List.getElem?_eq_getElem hlt
        have := (hinv q _ hq hget).2 c a hc' hqa
        have := hm q hqA _ hget
        omega
      · rw [List.length_append, List.length_singleton]
        rcases List.eq_nil_or_concat c with rfl | ⟨c', b, rfl⟩
        · simp
        · rw [List.concat_eq_append] at hc' ⊢
          have hl : ∃ p, p ∈ b ∧ p ∈ a := by
            have hlk := hc.linked
            rw [List.concat_eq_append] at hlk
            refine (List.isChain_append.1 hlk).2.2 b ?_ a (by simp)
            rw [List.getLast?_concat]; rfl
          obtain ⟨p, hpb, hpa⟩ := hl
          have hlt : p < F.length := hF ▸ hA p hpa
          have hget := List.getElem?_eq_getElem hlt
          have := (hinv p _ (hA p hpa) hget).2 c' b hc' hpb
          have := hm p hpa _ hget
          omega
  · rw [if_neg hqA] at hv
    obtain ⟨h1, h2⟩ := hinv q v hq hv
    refine ⟨h1.imp id fun ⟨c, a, hc, hqa, hl⟩ => ⟨c, a, chain_mono A hc, hqa, hl⟩, fun c a hc hqa => ?_⟩
    rcases chain_last hc with hc' | ⟨rfl, -⟩
    · exact h2 c a hc' hqa
    · exact absurd hqa hqA

/-- gates whose qubit lists can be asked for -/
def Instr.Fixed : Instr → Prop
  | .choice _ _ => False
  | .pchoice _ _ _ => False
  | _ => True

theorem item_lists {ins : Instr} {g : Item} (hb : ins.build = .ok g) (hok : ins.OK) (hf : Instr.Fixed ins) :
    ∃ cs ts, Item.controlList g = .ok cs ∧ Item.targetList g = .ok ts ∧ ∀ q, q ∈ ins.qubits ↔ q ∈ cs ∨ q ∈ ts := by
  have hm := item_mask hb hok
  cases ins with
  | gate d =>
    obtain ⟨g, hg, hb⟩ := bind_ok (show (do let g ← d.build; pure (Sum.inl (Gate.det g))) = .ok g from hb)
    cases hb
    refine ⟨_, _, rfl, rfl, fun q => ?_⟩
    rw [← hm q, show Item.operandMask (.inl (.det g)) = g.operands.t ||| g.operands.c from rfl, BitVec.getLsbD_or, Bool.or_eq_true, or_comm]
    exact or_congr mem_maskToVector.symm mem_maskToVector.symm
  | measure q c r =>
    obtain ⟨g, hg, hb⟩ := bind_ok (show (do let g ← mkMeas q c r; pure (Sum.inl (Gate.meas g))) = .ok g from hb)
    cases hb
    refine ⟨_, _, rfl, rfl, fun q => ?_⟩
    rw [← hm q, show Item.operandMask (.inl (.meas g)) = g.o.t ||| g.o.c from rfl, BitVec.getLsbD_or, Bool.or_eq_true, or_comm]
    exact or_congr mem_maskToVector.symm mem_maskToVector.symm
  | rot r key =>
    obtain ⟨p, hp, hb⟩ := bind_ok (show (do let p ← r.build; pure (Sum.inr (PGate.rot p, key))) = .ok g from hb)
    cases hb
    refine ⟨_, _, rfl, rfl, fun q => ?_⟩
    rw [← hm q, show Item.operandMask (.inr (.rot p, key)) = p.operands.t ||| p.operands.c from rfl, BitVec.getLsbD_or, Bool.or_eq_true, or_comm]
    exact or_congr mem_maskToVector.symm mem_maskToVector.symm
  | choice => exact hf.elim
  | pchoice => exact hf.elim

theorem item_lists_prob {ins : Instr} {g : Item} (hb : ins.build = .ok g) (hf : ¬ Instr.Fixed ins) :
    ∃ e, Item.controlList g = .error (.throw e) := by
  cases ins with
  | choice ps ds =>
    obtain ⟨gs, hgs, hb⟩ := bind_ok (show (do
      let gs ← ds.mapM GateDesc.build
      let g ← mkProbabilistic (ps.map some) (gs.map .det)
      pure (Sum.inl g)) = .ok g from hb)
    obtain ⟨g, hg, hb⟩ := bind_ok hb
    obtain ⟨t, ht, hg⟩ := bind_ok (show (do
      let t ← mkProbTable (ps.map some) ((gs.map Gate.det).map Gate.component)
      pure (Gate.prob t)) = .ok g from hg)
    cases hg
    cases hb
    exact ⟨_, rfl⟩
  | pchoice ps ls key =>
    obtain ⟨gs, hgs, hb⟩ := bind_ok (show (do
      let gs ← ls.mapM LeafDesc.build
      let p ← mkParamProbabilistic (ps.map some) gs
      pure (Sum.inr (p, key))) = .ok g from hb)
    obtain ⟨p, hpb, hb⟩ := bind_ok hb
    obtain ⟨tb, htb, hpb⟩ := bind_ok (show (do
      let t ← mkProbTable (ps.map some) (gs.map eitherComponent)
      pure (PGate.prob t)) = .ok p from hpb)
    cases hpb
    cases hb
    exact ⟨_, rfl⟩
  | gate => exact absurd trivial hf
  | measure => exact absurd trivial hf
  | rot => exact absurd trivial hf

theorem depth_loop {ls : List Line} {gs : List Item} (hb : ls.mapM (fun l => l.instr.build) = .ok gs) (hok : ∀ l ∈ ls, l.instr.OK)
    (hf : ∀ l ∈ ls, Instr.Fixed l.instr) {N : Nat} (hq : ∀ l ∈ ls, ∀ q ∈ l.instr.qubits, q < N) {F : List Nat} {P : List (List Nat)}
    (hF : F.length = N) (hinv : ∀ q v, q < N → F[q]? = some v → EndsWith P q v) :
    ∃ F', gs.foldlM depthStep F = .ok F' ∧ F'.length = N ∧
      ∀ q v, q < N → F'[q]? = some v → EndsWith (P ++ ls.map fun l => l.instr.qubits) q v := by
  induction ls generalizing gs F P with
  | nil => cases hb; exact ⟨F, rfl, hF, by simpa using hinv⟩
  | cons l ls ih =>
    rw [List.mapM_cons] at hb
    obtain ⟨g, hg, hb⟩ := bind_ok hb
    obtain ⟨gs', hgs, hb⟩ := bind_ok hb
    cases hb
    obtain ⟨cs, ts, hc, ht, hA⟩ := item_lists hg (hok l List.mem_cons_self) (hf l List.mem_cons_self)
    obtain ⟨m, F1, hs, hl, h1, h2, h3⟩ := depthStep_spec hc ht hA (F := F) (by rw [hF]; exact hq l List.mem_cons_self)
    obtain ⟨F', hr, hl', hinv'⟩ := ih hgs (fun l hl => hok l (List.mem_cons_of_mem _ hl)) (fun l hl => hf l (List.mem_cons_of_mem _ hl))
      (fun l hl => hq l (List.mem_cons_of_mem _ hl)) (F := F1) (P := P ++ [l.instr.qubits]) (hl.trans hF)
      (ends_step hF hinv (hq l List.mem_cons_self) h1 h2 h3)
    refine ⟨F', ?_, hl', ?_⟩
    · rw [List.foldlM_cons, hs]; exact hr
    · simpa using hinv'

theorem depth_throws {ls : List Line} {gs : List Item} (hb : ls.mapM (fun l => l.instr.build) = .ok gs) (hok : ∀ l ∈ ls, l.instr.OK)
    (hf : ∃ l ∈ ls, ¬ Instr.Fixed l.instr) {N : Nat} (hq : ∀ l ∈ ls, ∀ q ∈ l.instr.qubits, q < N) {F : List Nat}
    (hF : F.length = N) : ∃ e, gs.foldlM depthStep F = .error (.throw e) := by
  induction ls generalizing gs F with
  | nil => obtain ⟨l, hl, -⟩ := hf; simp at hl
  | cons l ls ih =>
    rw [List.mapM_cons] at hb
    obtain ⟨g, hg, hb⟩ := bind_ok hb
    obtain ⟨gs', hgs, hb⟩ := bind_ok hb
    cases hb
    rw [List.foldlM_cons]
    by_cases hfx : Instr.Fixed l.instr
    · obtain ⟨cs, ts, hc, ht, hA⟩ := item_lists hg (hok l List.mem_cons_self) hfx
      obtain ⟨m, F1, hs, hl, -, -, -⟩ := depthStep_spec hc ht hA (F := F) (by rw [hF]; exact hq l List.mem_cons_self)
      rw [hs]
      refine ih hgs (fun l hl => hok l (List.mem_cons_of_mem _ hl)) ?_ (fun l hl => hq l (List.mem_cons_of_mem _ hl)) (hl.trans hF)
      obtain ⟨l', hl', h'⟩ := hf
      rcases List.mem_cons.1 hl' with rfl | hl'
      · exact absurd hfx h'
      · exact ⟨l', hl', h'⟩
    · obtain ⟨e, he⟩ := item_lists_prob hg hfx
      exact ⟨e, by unfold depthStep; rw [he]; rfl⟩

theorem required_spec {ls : List Line} {gs : List Item} (hb : ls.mapM (fun l => l.instr.build) = .ok gs) (hok : ∀ l ∈ ls, l.instr.OK)
    (cs : List (Option Condition)) (n : Nat) :
    Circuit.requiredQubits ⟨gs, cs⟩ ≤ n ↔ ∀ l ∈ ls, ∀ q ∈ l.instr.qubits, q < n := by
  rw [← (checkQubits_iff hb hok (cs := cs) n).1]
  unfold Circuit.checkQubits
  by_cases h : Circuit.requiredQubits ⟨gs, cs⟩ > n
  · rw [if_pos h]; simp; omega
  · rw [if_neg h]; simp; omega

end Verif.Proofs
