import Verif.Proofs.CircuitRun
import Verif.Proofs.SlotLoop

/-! # Running a circuit on a batch -/

namespace Verif.Proofs
open Verif Verif.Spec Verif.Model
attribute [-simp] BitVec.getLsbD_eq_getElem

/-! ## slots -/

theorem slotAddr {n : Nat} (j : U64) :
    BitVec.ofNat 64 (j.toNat / 2 ^ n * 2 ^ n + j.toNat % 2 ^ n) = j := by
  rw [Nat.mul_comm, Nat.div_add_mod]
  exact BitVec.eq_of_toNat_eq (by rw [BitVec.toNat_ofNat, Nat.mod_eq_of_lt j.isLt])

theorem low_toNat {n : Nat} (j : U64) : (BitVec.ofNat 64 (j.toNat % 2 ^ n)).toNat = j.toNat % 2 ^ n := by
  rw [BitVec.toNat_ofNat]
  exact Nat.mod_eq_of_lt (lt_of_le_of_lt (Nat.mod_le _ _) j.isLt)

theorem slotOf_low {n b : Nat} {j : U64} (h : j.toNat / 2 ^ n = b) (Ψ : U64 → ℂ) :
    slotOf n b Ψ (BitVec.ofNat 64 (j.toNat % 2 ^ n)) = Ψ j := by
  unfold slotOf
  rw [low_toNat, if_pos (Nat.mod_lt _ (Nat.two_pow_pos n)), ← h, slotAddr]

theorem putSlot_slotOf (n b : Nat) (Ψ : U64 → ℂ) : putSlot n b (slotOf n b Ψ) Ψ = Ψ := by
  funext j
  unfold putSlot
  by_cases h : j.toNat / 2 ^ n = b
  · rw [if_pos h, slotOf_low h]
  · rw [if_neg h]

theorem lt_slots {B n : Nat} {j : U64} (hj : j.toNat < B * 2 ^ n) : j.toNat / 2 ^ n < B :=
  Nat.div_lt_of_lt_mul (by rw [Nat.mul_comm]; exact hj)

/-- the loop over the slots for any step that works on its own slot only -/
theorem slots_loop' {B n : Nat} (hB : B * 2 ^ n ≤ 2 ^ 64) {step : Nat → BContext → BContext → Option Fault → Prop} (Ψ : U64 → ℂ)
    (regs : List (List Bool)) (sz : Nat) (hl : regs.length = B) (D : Nat → U64 → ℂ) (R : Nat → List Bool) (P : Nat → Nat)
    (h : ∀ b (_ : b < B) Ψ' regs', slotOf n b Ψ' = slotOf n b Ψ → regs'[b]? = regs[b]? →
      step b ⟨Ψ', ⟨sz, regs'⟩, P b⟩ ⟨putSlot n b (D b) Ψ', ⟨sz, regs'.set b (R b)⟩, P (b + 1)⟩ none) :
    SeqRun step (List.range B) ⟨Ψ, ⟨sz, regs⟩, P 0⟩ ⟨ofSlots B n D Ψ, ⟨sz, (List.range B).map R⟩, P B⟩ none := by
  have key : ∀ m s, s + m = B → SeqRun step (List.range' s m)
      ⟨ofSlots s n D Ψ, ⟨sz, (List.range s).map R ++ regs.drop s⟩, P s⟩
      ⟨ofSlots B n D Ψ, ⟨sz, (List.range B).map R⟩, P B⟩ none := by
    intro m
    induction m with
    | zero =>
      intro s hs
      obtain rfl : s = B := by omega
      rw [List.drop_of_length_le (by omega), List.append_nil]
      exact SeqRun.nil _
    | succ m ih =>
      intro s hs
      rw [List.range'_succ]
      refine SeqRun.cons _ _ _ ⟨ofSlots (s + 1) n D Ψ, ⟨sz, (List.range (s + 1)).map R ++ regs.drop (s + 1)⟩, P (s + 1)⟩ _ _
        ?_ (ih (s + 1) (by omega))
      have hsl : s < regs.length := by omega
      have hget : ((List.range s).map R ++ regs.drop s)[s]? = regs[s]? := by
        rw [List.getElem?_append_right (by simp), List.length_map, List.length_range, Nat.sub_self, List.getElem?_drop,
          Nat.add_zero]
      have := h s (by omega) (ofSlots s n D Ψ) ((List.range s).map R ++ regs.drop s)
        (slotOf_ofSlots_later hB (by omega) le_rfl D Ψ) hget
      rw [putSlot_ofSlots hB (by omega)] at this
      convert this using 3
      rw [List.range_succ, List.map_append, List.append_assoc, List.set_append_right _ _ (by simp), List.length_map,
        List.length_range, Nat.sub_self]
      congr 1
      rw [List.drop_eq_getElem_cons hsl]
      rfl
  have h0 : ofSlots 0 n D Ψ = Ψ := by
    funext j
    unfold ofSlots
    rw [if_neg (by omega)]
  have := key B 0 (by omega)
  rw [h0] at this
  simpa [List.range_eq_range'] using this

theorem slot_eq_slotOf {n b : Nat} {Ψ : U64 → ℂ} {j : U64} (hj : j.toNat < 2 ^ n) : slot n b Ψ j = slotOf n b Ψ j := by
  unfold slotOf
  rw [if_pos hj]
  rfl

theorem gate_slots {d : GateDesc} {g : UGate} (hd : DescOK d) (h : d.build = .ok g) {B n : Nat} (hB : B * 2 ^ n ≤ 2 ^ 64)
    (hq : ∀ q ∈ qubitsOf d, q < n) (Ψ : U64 → ℂ) :
    onState (B * 2 ^ n) (operatorOf d) Ψ = ofSlots B n (fun b => onState (2 ^ n) (operatorOf d) (slotOf n b Ψ)) Ψ := by
  obtain ⟨hv, he, hs⟩ := build_valid hd h
  obtain ⟨ht, hc⟩ := build_bounds hs hq
  rw [← he]
  funext j
  unfold ofSlots
  by_cases hj : j.toNat < B * 2 ^ n
  · rw [if_pos hj]
    have hb := lt_slots hj
    have hlow : (BitVec.ofNat 64 (j.toNat % 2 ^ n)).toNat < 2 ^ n := by
      rw [low_toNat]; exact Nat.mod_lt _ (Nat.two_pow_pos n)
    have := onState_slot hB hb ht hc Ψ hlow
    rw [slot_eq_slotOf hlow, slotOf_low rfl, Nat.one_mul] at this
    rw [this]
    unfold onState
    dsimp only
    rw [if_pos hlow, if_pos hlow]
    exact applyMat_local (B := 1) (n := n) (valid_targetsOK g).lt ht _ _ _
      (fun k hk => slot_eq_slotOf (by omega)) _ (by omega)
  · rw [if_neg hj]
    unfold onState
    rw [if_neg hj]

/-! ## one entry on a batch -/

/-- memory and registers hold the given situations -/
structure Holds (B n sz : Nat) (Ψ0 : U64 → ℂ) (S : Nat → Situation) (Ψ : U64 → ℂ) (regs : List (List Bool)) : Prop where
  psi : ∀ b, b < B → slotOf n b Ψ = (S b).psi
  regs : regs = (List.range B).map fun b => (S b).reg
  len : ∀ b, b < B → (S b).reg.length = sz
  rest : ∀ j : U64, ¬ j.toNat < B * 2 ^ n → Ψ j = Ψ0 j

theorem Holds.reg_get {B n sz : Nat} {Ψ0 Ψ : U64 → ℂ} {S : Nat → Situation} {regs : List (List Bool)} (h : Holds B n sz Ψ0 S Ψ regs)
    {b : Nat} (hb : b < B) : regs[b]? = some (S b).reg := by
  rw [h.regs]; simp [hb]

/-- outside the state everything is zero -/
def Zero (n : Nat) (ψ : U64 → ℂ) : Prop := ∀ j : U64, ¬ j.toNat < 2 ^ n → ψ j = 0

theorem slotOf_zero (n b : Nat) (Ψ : U64 → ℂ) : Zero n (slotOf n b Ψ) := fun j hj => by unfold slotOf; rw [if_neg hj]

theorem effect_zero {n : Nat} {θ : String → Option ℝ} {l : Line} {s s' : Situation} {us : List ℝ} (he : l.Effect n θ s us s')
    (h : Zero n s.psi) : Zero n s'.psi ∧ s'.reg.length = s.reg.length := by
  have key : ∀ f, Zero n (onState (2 ^ n) f s.psi) := fun f j hj => by
    unfold onState; rw [if_neg hj]; exact h j hj
  cases he with
  | skip => exact ⟨h, rfl⟩
  | gate => exact ⟨key _, rfl⟩
  | choice => exact ⟨key _, rfl⟩
  | measure => exact ⟨key _, by simp⟩
  | rot => exact ⟨key _, rfl⟩
  | pchoice => exact ⟨key _, rfl⟩

theorem slotOf_ofSlots_zero {B n b : Nat} (hB : B * 2 ^ n ≤ 2 ^ 64) (hb : b < B) {D : Nat → U64 → ℂ} (Ψ : U64 → ℂ)
    (h : Zero n (D b)) : slotOf n b (ofSlots B n D Ψ) = D b := by
  funext j
  by_cases hj : j.toNat < 2 ^ n
  · exact slotOf_ofSlots hB hb D Ψ hj
  · rw [slotOf_zero n b _ j hj, h j hj]

theorem holds_next {B n sz : Nat} (hB : B * 2 ^ n ≤ 2 ^ 64) {Ψ0 Ψ : U64 → ℂ} {S S' : Nat → Situation} {regs : List (List Bool)}
    {l : Line} {θ : Nat → String → Option ℝ} {us : Nat → List ℝ} (h : Holds B n sz Ψ0 S Ψ regs)
    (he : ∀ b, b < B → l.Effect n (θ b) (S b) (us b) (S' b)) :
    Holds B n sz Ψ0 S' (ofSlots B n (fun b => (S' b).psi) Ψ) ((List.range B).map fun b => (S' b).reg) where
  psi := fun b hb => slotOf_ofSlots_zero hB hb Ψ (effect_zero (he b hb) (by rw [← h.psi b hb]; exact slotOf_zero _ _ _)).1
  regs := rfl
  len := fun b hb => ((effect_zero (he b hb) (by rw [← h.psi b hb]; exact slotOf_zero _ _ _)).2).trans (h.len b hb)
  rest := fun j hj => by unfold ofSlots; rw [if_neg hj]; exact h.rest j hj

/-- the parameters of slot `b` -/
def slotParams (params : String → Option (List ℝ)) (b : Nat) : String → Option ℝ := fun k => (params k).bind (·[b]?)

/-- position of the random numbers of slot `b` -/
def drawPos (us : Nat → List ℝ) (pos b : Nat) : Nat := pos + ((List.range b).flatMap us).length

theorem drawPos_succ (us : Nat → List ℝ) (pos b : Nat) : drawPos us pos (b + 1) = drawPos us pos b + (us b).length := by
  unfold drawPos
  rw [List.range_succ, List.flatMap_append, List.length_append]
  simp
  omega

theorem draws_of {us : Nat → List ℝ} {rnd : Nat → ℝ} {pos B : Nat}
    (hr : ∀ i (hi : i < ((List.range B).flatMap us).length), rnd (pos + i) = ((List.range B).flatMap us)[i]) {b : Nat} (hb : b < B)
    (i : Nat) (hi : i < (us b).length) : rnd (drawPos us pos b + i) = (us b)[i] := by
  unfold drawPos
  have e : (List.range B).flatMap us = (List.range b).flatMap us ++ (us b ++ (List.range' (b + 1) (B - (b + 1))).flatMap us) := by
    rw [List.range_eq_range', List.range_eq_range', show B = b + (1 + (B - (b + 1))) by omega, ← List.range'_append_1,
      ← List.range'_append_1]
    simp [List.flatMap_append]
    congr 2
    omega
  have hlen : ((List.range b).flatMap us).length + i < ((List.range B).flatMap us).length := by
    rw [e, List.length_append, List.length_append]; omega
  rw [Nat.add_assoc, hr _ hlen]
  simp only [e]
  rw [List.getElem_append_right (by omega)]
  simp only [Nat.add_sub_cancel_left]
  rw [List.getElem_append_left hi]

theorem raw_slot {L n : Nat} {rnd : Nat → ℝ} {θ : String → Option ℝ} {g : Gate} {c c' : Context}
    (h : Item.Raw L n rnd θ (.inl g) c c') : g.RunsOn L n rnd c c' none := h

variable {l : Line} {g : Item} {L B n sz : Nat} {params : String → Option (List ℝ)} {S S' : Nat → Situation} {us : Nat → List ℝ}
  {rnd : Nat → ℝ} {pos : Nat} {Ψ0 Ψ : U64 → ℂ} {regs : List (List Bool)}

/-! ## views -/

theorem PLeaf.runsOnView_unique {L n : Nat} {t : ℝ} {g : PLeaf} {c c1 c2 : Context} {f1 f2 : Option Fault}
    (h1 : g.RunsOnView L n t c c1 f1) (h2 : g.RunsOnView L n t c c2 f2) : c1 = c2 ∧ f1 = f2 := by
  cases g with
  | fixed g => exact UGate.runsOnView_unique (g := g) h1 h2
  | rot r => exact PRot.runsOn_unique (g := r) h1 h2

theorem PGate.runsOnView_unique {L n : Nat} {rnd : Nat → ℝ} {t : ℝ} {g : PGate} {c c1 c2 : Context} {f1 f2 : Option Fault}
    (h1 : g.RunsOnView L n rnd t c c1 f1) (h2 : g.RunsOnView L n rnd t c c2 f2) : c1 = c2 ∧ f1 = f2 := by
  cases g with
  | rot r => exact PRot.runsOn_unique (g := r) h1 h2
  | prob tb =>
    unfold PGate.RunsOnView at h1 h2
    dsimp only at h1 h2
    cases hs : tb.select (rnd c.pos) with
    | error e => rw [hs] at h1 h2; exact ⟨h1.1.trans h2.1.symm, h1.2.trans h2.2.symm⟩
    | ok u => rw [hs] at h1 h2; exact PLeaf.runsOnView_unique (g := u) h1 h2

def LeafInPlace : PLeaf → Prop
  | .fixed g => g.swapsBuffer = false
  | .rot _ => True

def PGateInPlace : PGate → Prop
  | .rot _ => True
  | .prob t => ∀ g ∈ t.gates, LeafInPlace g

def ItemInPlace : Item → Prop
  | .inl g => GateInPlace g
  | .inr (p, _) => PGateInPlace p

theorem PGate.runsOnView_iff {L n : Nat} {rnd : Nat → ℝ} {t : ℝ} {g : PGate} (h : PGateInPlace g) {c c' : Context} {f : Option Fault} :
    g.RunsOnView L n rnd t c c' f ↔ g.RunsOn L n rnd t c c' f := by
  cases g with
  | rot g => exact Iff.rfl
  | prob tb =>
    unfold PGate.RunsOnView PGate.RunsOn
    dsimp only
    cases hs : tb.select (rnd c.pos) with
    | error e => exact Iff.rfl
    | ok u =>
      have := h u (select_mem hs)
      cases u with
      | fixed u => exact UGate.runsOnView_iff this
      | rot r => exact Iff.rfl

theorem instr_inPlace {i : Instr} {g : Item} (hs : i.SmallMatrices) (hb : i.build = .ok g) : ItemInPlace g := by
  cases i with
  | gate d =>
    obtain ⟨u, hg, hb⟩ := bind_ok (show (do let g ← d.build; pure (Sum.inl (Gate.det g))) = .ok g from hb)
    cases hb
    exact build_inPlace hs hg
  | choice ps ds =>
    obtain ⟨gs, hgs, hb'⟩ := bind_ok (show (do
      let gs ← ds.mapM GateDesc.build
      let g ← mkProbabilistic (ps.map some) (gs.map .det)
      pure (Sum.inl g)) = .ok g from hb)
    obtain ⟨u, hg, hb'⟩ := bind_ok hb'
    cases hb'
    obtain ⟨t, ht, hg⟩ := bind_ok (show (do
      let t ← mkProbTable (ps.map some) ((gs.map Gate.det).map Gate.component)
      pure (Gate.prob t)) = .ok u from hg)
    cases hg
    rw [List.map_map, show Gate.component ∘ Gate.det = Component.leaf from rfl] at ht
    obtain ⟨-, -, e⟩ := mkProbTable_leaf ht
    intro u hu
    rw [e] at hu
    obtain ⟨k, hk, rfl⟩ := List.mem_iff_getElem.1 hu
    have hk' : k < ds.length := by rw [← (mapM_get _ hgs).1]; exact hk
    obtain ⟨b, h1, h2⟩ := (mapM_get _ hgs).2 k _ (List.getElem?_eq_getElem hk')
    rw [List.getElem?_eq_getElem hk] at h1
    rw [Option.some.inj h1]
    exact build_inPlace (hs _ (List.getElem_mem hk')) h2
  | measure q cbit reset =>
    obtain ⟨u, hg, hb'⟩ := bind_ok (show (do let g ← mkMeas q cbit reset; pure (Sum.inl (Gate.meas g))) = .ok g from hb)
    cases hb'
    trivial
  | rot r key' =>
    obtain ⟨p, hp, hb'⟩ := bind_ok (show (do let p ← r.build; pure (Sum.inr (PGate.rot p, key'))) = .ok g from hb)
    cases hb'
    trivial
  | pchoice ps ls key' =>
    obtain ⟨gs, hgs, hb'⟩ := bind_ok (show (do
      let gs ← ls.mapM LeafDesc.build
      let p ← mkParamProbabilistic (ps.map some) gs
      pure (Sum.inr (p, key'))) = .ok g from hb)
    obtain ⟨p, hpb, hb'⟩ := bind_ok hb'
    cases hb'
    obtain ⟨tb, htb, hpb⟩ := bind_ok (show (do
      let t ← mkProbTable (ps.map some) (gs.map eitherComponent)
      pure (PGate.prob t)) = .ok p from hpb)
    cases hpb
    obtain ⟨us, hus, e⟩ := leaves_build hgs
    rw [e] at htb
    obtain ⟨-, -, e⟩ := mkProbTable_leaf htb
    intro u hu
    rw [e] at hu
    obtain ⟨k, hk, rfl⟩ := List.mem_iff_getElem.1 hu
    have hk' : k < ls.length := by rw [← (mapM_get _ hus).1]; exact hk
    obtain ⟨b, h1, h2⟩ := (mapM_get _ hus).2 k _ (List.getElem?_eq_getElem hk')
    rw [List.getElem?_eq_getElem hk] at h1
    rw [Option.some.inj h1]
    have hsm := hs _ (List.getElem_mem hk')
    cases hl : ls[k] with
    | fixed d =>
      rw [hl] at h2 hsm
      obtain ⟨g, hg, h2⟩ := bind_ok (show (do let g ← d.build; pure (PLeaf.fixed g)) = .ok b from h2)
      cases h2
      exact build_inPlace hsm hg
    | rot r =>
      rw [hl] at h2
      obtain ⟨g, hg, h2⟩ := bind_ok (show (do let g ← r.build; pure (PLeaf.rot g)) = .ok b from h2)
      cases h2
      trivial

/-- a conditional entry -/
theorem cond_line (hb : l.instr.build = .ok g) (hok : l.instr.OK) (hL : LanesOK L) (hn : n < 64) (hB : B * 2 ^ n ≤ 2 ^ 64)
    (hq : ∀ q ∈ l.instr.qubits, q < n) (hv : l.instr.SmallMatrices) {f : Condition} (hf : l.cond = some f)
    (he : ∀ b, b < B → l.Effect n (slotParams params b) (S b) (us b) (S' b))
    (hr : ∀ i (hi : i < ((List.range B).flatMap us).length), rnd (pos + i) = ((List.range B).flatMap us)[i])
    (hh : Holds B n sz Ψ0 S Ψ regs) :
    SeqRun (Item.CondSlot L n rnd params f g) (List.range B) ⟨Ψ, ⟨sz, regs⟩, pos⟩
      ⟨ofSlots B n (fun b => (S' b).psi) Ψ, ⟨sz, (List.range B).map fun b => (S' b).reg⟩, pos + ((List.range B).flatMap us).length⟩ none := by
  refine slots_loop' hB Ψ regs sz (by rw [hh.regs]; simp) (fun b => (S' b).psi) (fun b => (S' b).reg) (drawPos us pos) ?_
  intro b hbB Ψ' regs' hΨ hregs
  have hget : regs'[b]? = some (S b).reg := by rw [hregs]; exact hh.reg_get hbB
  have hpsi : slotOf n b Ψ' = (S b).psi := by rw [hΨ]; exact hh.psi b hbB
  unfold Item.CondSlot
  dsimp only
  rw [hget]
  dsimp only
  rw [drawPos_succ]
  rcases effect_cond (he b hbB) with hc | ⟨hc, hus, hs⟩
  · have hev : f (S b).reg = .ok true := by
      have := evalCond_of hc
      rw [hf] at this
      exact this
    rw [hev]
    dsimp only
    have hraw := item_raw hb hok hL hn hq (he b hbB) hc (rnd := rnd) (pos := drawPos us pos b)
      (fun i hi => draws_of hr hbB i hi)
    rcases g with g | ⟨p, key⟩
    · dsimp only
      unfold SlotStep
      dsimp only
      rw [hget]
      exact ⟨_, by rw [hpsi]; exact (Gate.runsOnView_iff (instr_inPlace hv hb)).2 hraw, rfl⟩
    · obtain ⟨t, ht, hraw⟩ := hraw
      unfold slotParams at ht
      cases hk : params key with
      | none => rw [hk] at ht; cases ht
      | some v =>
        rw [hk] at ht
        dsimp only
        rw [hk]
        dsimp only
        rw [show v[b]? = some t from ht]
        dsimp only
        unfold SlotStep
        dsimp only
        rw [hget]
        exact ⟨_, by rw [hpsi]; exact (PGate.runsOnView_iff (instr_inPlace hv hb)).2 hraw, rfl⟩
  · have hev : f (S b).reg = .ok false := by
      have := evalCond_of hc
      rw [hf] at this
      exact this
    rw [hev, hus, hs, ← hpsi, putSlot_slotOf]
    refine ⟨?_, rfl⟩
    have : regs'.set b (S b).reg = regs' := by
      apply List.ext_getElem?
      intro i
      rw [List.getElem?_set]
      split
      · rename_i e; subst e
        split
        · exact hget.symm
        · rename_i hlt; rw [List.getElem?_eq_none (by omega)] at hget; cases hget
      · rfl
    rw [this]
    rfl

theorem effect_gate {d : GateDesc} {c : Option Condition} {n : Nat} {θ : String → Option ℝ} {s s' : Situation} {us : List ℝ}
    (he : Line.Effect n θ ⟨.gate d, c⟩ s us s') (hc : Line.CondIs ⟨.gate d, c⟩ s.reg true) :
    us = [] ∧ s' = { s with psi := onState (2 ^ n) (operatorOf d) s.psi } := by
  cases he with
  | skip _ _ hf => exact absurd (condIs_unique hc hf) (by simp)
  | gate => exact ⟨rfl, rfl⟩

theorem effect_rot {r : RotDesc} {key : String} {c : Option Condition} {n : Nat} {θ : String → Option ℝ} {s s' : Situation}
    {us : List ℝ} (he : Line.Effect n θ ⟨.rot r key, c⟩ s us s') (hc : Line.CondIs ⟨.rot r key, c⟩ s.reg true) :
    us = [] ∧ ∃ t, θ key = some t ∧ s' = { s with psi := onState (2 ^ n) (operatorOf (r.at t)) s.psi } := by
  cases he with
  | skip _ _ hf => exact absurd (condIs_unique hc hf) (by simp)
  | rot _ _ t _ _ _ _ ht => exact ⟨rfl, t, ht, rfl⟩

theorem effect_key {l : Line} {k : String} {n : Nat} {θ : String → Option ℝ} {s s' : Situation} {us : List ℝ}
    (he : l.Effect n θ s us s') (hc : l.CondIs s.reg true) (hk : l.instr.key? = some k) : ∃ t, θ k = some t := by
  cases he with
  | skip _ _ hf => exact absurd (condIs_unique hc hf) (by simp)
  | gate => cases hk
  | choice => cases hk
  | measure => cases hk
  | rot _ _ t _ _ _ _ ht => cases hk; exact ⟨t, ht⟩
  | pchoice _ _ _ t _ _ _ _ _ _ _ ht => cases hk; exact ⟨t, ht⟩

theorem effect_measure {q cbit : Nat} {reset : Bool} {c : Option Condition} {n : Nat} {θ : String → Option ℝ} {s s' : Situation}
    {us : List ℝ} (he : Line.Effect n θ ⟨.measure q cbit reset, c⟩ s us s') (hc : Line.CondIs ⟨.measure q cbit reset, c⟩ s.reg true) :
    cbit < s.reg.length := by
  cases he with
  | skip _ _ hf => exact absurd (condIs_unique hc hf) (by simp)
  | measure _ _ _ _ _ _ _ _ _ h => exact h

theorem flatMap_nil {us : Nat → List ℝ} {B : Nat} (h : ∀ b, b < B → us b = []) : (List.range B).flatMap us = [] := by
  rw [List.flatMap_eq_nil_iff]
  intro b hb
  exact h b (List.mem_range.1 hb)

/-- an unconditional entry after the test of the mask -/
theorem plain_line (hb : l.instr.build = .ok g) (hok : l.instr.OK) (hL : LanesOK L) (hn : n < 64) (hB : B * 2 ^ n ≤ 2 ^ 64)
    (hB0 : 0 < B) (hq : ∀ q ∈ l.instr.qubits, q < n) (hv : l.instr.SmallMatrices ∨ l.instr.Definite) (hf : l.cond = none)
    (hlen : ∀ k v, l.instr.key? = some k → params k = some v → v.length = B)
    (he : ∀ b, b < B → l.Effect n (slotParams params b) (S b) (us b) (S' b))
    (hr : ∀ i (hi : i < ((List.range B).flatMap us).length), rnd (pos + i) = ((List.range B).flatMap us)[i])
    (hh : Holds B n sz Ψ0 S Ψ regs) :
    (match g with
      | .inl g => g.RunsBatched L B n rnd ⟨Ψ, ⟨sz, regs⟩, pos⟩
          ⟨ofSlots B n (fun b => (S' b).psi) Ψ, ⟨sz, (List.range B).map fun b => (S' b).reg⟩, pos + ((List.range B).flatMap us).length⟩ none
      | .inr (p, key) => ∃ v, params key = some v ∧ p.RunsBatched L B n rnd v ⟨Ψ, ⟨sz, regs⟩, pos⟩
          ⟨ofSlots B n (fun b => (S' b).psi) Ψ, ⟨sz, (List.range B).map fun b => (S' b).reg⟩, pos + ((List.range B).flatMap us).length⟩ none) := by
  have hc : ∀ b, l.CondIs (S b).reg true := fun b => by unfold Line.CondIs; rw [hf]
  have hraw := fun b (hbB : b < B) => item_raw hb hok hL hn hq (he b hbB) (hc b) (rnd := rnd) (pos := drawPos us pos b)
      (fun i hi => draws_of hr hbB i hi)
  have hrl : regs.length = B := by rw [hh.regs]; simp
  have hreg : ∀ b (hbB : b < regs.length), regs[b] = (S b).reg := by
    intro b hbB
    have := hh.reg_get (b := b) (by omega)
    rw [List.getElem?_eq_getElem hbB] at this
    exact Option.some.inj this
  have key : ∀ (run : Context → Context → Option Fault → Prop),
      (∀ b, b < B → run ⟨(S b).psi, (S b).reg, drawPos us pos b⟩ ⟨(S' b).psi, (S' b).reg, drawPos us pos b + (us b).length⟩ none) →
      SeqRun (SlotStep n run) (List.range B) ⟨Ψ, ⟨sz, regs⟩, pos⟩
        ⟨ofSlots B n (fun b => (S' b).psi) Ψ, ⟨sz, (List.range B).map fun b => (S' b).reg⟩, pos + ((List.range B).flatMap us).length⟩ none := by
    intro run hrun
    refine slots_loop hB Ψ regs sz hrl (fun b => (S' b).psi) (fun b => (S' b).reg) (drawPos us pos) fun b hbl => ?_
    rw [hh.psi b (by omega), hreg, drawPos_succ]
    exact hrun b (by omega)
  obtain ⟨ins, cond⟩ := l
  dsimp only at hb hok hq hf hlen hv
  subst hf
  cases ins with
  | gate d =>
    obtain ⟨u, hg, hb⟩ := bind_ok (show (do let g ← d.build; pure (Sum.inl (Gate.det g))) = .ok g from hb)
    cases hb
    obtain ⟨dev, hdev, hrun⟩ := build_update hok hg hL hn hB hq
    have heff := fun b (hbB : b < B) => effect_gate (he b hbB) (hc b)
    dsimp only
    unfold Gate.RunsBatched
    dsimp only
    rw [hdev]
    refine ⟨rfl, ?_, ?_, ?_⟩
    · rw [hh.regs]
      congr 1
      apply List.map_congr_left
      intro b hbm
      rw [(heff b (List.mem_range.1 hbm)).2]
    · rw [flatMap_nil fun b hbB => (heff b hbB).1]
      rfl
    · have := hrun Ψ
      rw [gate_slots hok hg hB hq] at this
      convert this using 1
      funext j
      unfold ofSlots
      by_cases hj : j.toNat < B * 2 ^ n
      · rw [if_pos hj, if_pos hj]
        dsimp only
        rw [(heff _ (lt_slots hj)).2, hh.psi _ (lt_slots hj)]
      · rw [if_neg hj, if_neg hj]
  | choice ps ds =>
    obtain ⟨gs, hgs, hb'⟩ := bind_ok (show (do
      let gs ← ds.mapM GateDesc.build
      let g ← mkProbabilistic (ps.map some) (gs.map .det)
      pure (Sum.inl g)) = .ok g from hb)
    obtain ⟨u, hg, hb'⟩ := bind_ok hb'
    cases hb'
    obtain ⟨t, ht, hg⟩ := bind_ok (show (do
      let t ← mkProbTable (ps.map some) ((gs.map Gate.det).map Gate.component)
      pure (Gate.prob t)) = .ok u from hg)
    cases hg
    exact key _ fun b hbB => (Gate.runsOnView_iff (g := .prob t) (instr_inPlace (hv.resolve_right id) hb)).2 (hraw b hbB)
  | measure q cbit reset =>
    obtain ⟨u, hg, hb'⟩ := bind_ok (show (do let g ← mkMeas q cbit reset; pure (Sum.inl (Gate.meas g))) = .ok g from hb)
    cases hb'
    have hqn : q < n := hq q (by simp [Instr.qubits])
    have hcb : ∀ b, b < B → cbit < (S b).reg.length := fun b hbB => effect_measure (he b hbB) (hc b)
    dsimp only
    unfold Gate.RunsBatched
    dsimp only
    rw [(meas_checkBatched_ok hg (by omega)).1.2 ⟨hqn, hrl, by
      have := hcb 0 hB0
      rw [hh.len 0 hB0] at this
      exact this⟩]
    refine key _ fun b hbB => ?_
    have : MeasGate.RunsOn L n rnd u _ _ none := hraw b hbB
    unfold MeasGate.RunsOn at this
    dsimp only at this
    rw [(meas_check_ok hg (by omega)).1.2 ⟨hqn, hcb b hbB⟩] at this
    exact this
  | rot r key' =>
    obtain ⟨p, hp, hb'⟩ := bind_ok (show (do let p ← r.build; pure (Sum.inr (PGate.rot p, key'))) = .ok g from hb)
    cases hb'
    have heff := fun b (hbB : b < B) => effect_rot (he b hbB) (hc b)
    obtain ⟨-, t0, ht0, -⟩ := heff 0 hB0
    cases hk : params key' with
    | none => unfold slotParams at ht0; rw [hk] at ht0; cases ht0
    | some v =>
      have hvl : v.length = B := hlen key' v rfl hk
      refine ⟨v, hk, ?_⟩
      unfold PGate.RunsBatched
      dsimp only
      unfold PRot.RunsBatched
      rw [rot_bounds hp hn hq]
      dsimp only
      rw [dif_pos (by omega)]
      refine ⟨rfl, ?_, ?_, fun b => if b < B then (S' b).psi else slotOf n b Ψ, ?_, ?_⟩
      · rw [hh.regs]
        congr 1
        apply List.map_congr_left
        intro b hbm
        obtain ⟨-, t, -, e⟩ := heff b (List.mem_range.1 hbm)
        rw [e]
      · rw [flatMap_nil fun b hbB => (heff b hbB).1]
        rfl
      · refine slots_run (m := fun b => slotOf n b Ψ) (m' := fun b => if b < B then (S' b).psi else slotOf n b Ψ) le_rfl (fun b => ?_)
          fun b hb => if_neg (by omega)
        rw [if_pos b.isLt]
        obtain ⟨-, t, ht, e⟩ := heff b b.isLt
        unfold slotParams at ht
        rw [hk] at ht
        have hbv : b.val < v.length := by omega
        have ht' : v[b.val]? = some t := ht
        rw [List.getElem?_eq_getElem hbv] at ht'
        have ht2 := Option.some.inj ht'
        rw [ht2, hh.psi b.val b.isLt, e]
        exact rot_launch hp hn hq t _
      · funext j
        unfold ofSlots
        by_cases hj : j.toNat < B * 2 ^ n
        · rw [if_pos hj, if_pos hj]
          dsimp only
          rw [if_pos (lt_slots hj)]
        · rw [if_neg hj, if_neg hj]
  | pchoice ps ls key' =>
    obtain ⟨gs, hgs, hb'⟩ := bind_ok (show (do
      let gs ← ls.mapM LeafDesc.build
      let p ← mkParamProbabilistic (ps.map some) gs
      pure (Sum.inr (p, key'))) = .ok g from hb)
    obtain ⟨p, hpb, hb'⟩ := bind_ok hb'
    cases hb'
    obtain ⟨tb, htb, hpb⟩ := bind_ok (show (do
      let t ← mkProbTable (ps.map some) (gs.map eitherComponent)
      pure (PGate.prob t)) = .ok p from hpb)
    cases hpb
    obtain ⟨t0, ht0⟩ := effect_key (he 0 hB0) (hc 0) (k := key') rfl
    cases hk : params key' with
    | none => unfold slotParams at ht0; rw [hk] at ht0; cases ht0
    | some v =>
      have hvl : v.length = B := hlen key' v rfl hk
      refine ⟨v, hk, ?_⟩
      unfold PGate.RunsBatched
      dsimp only
      refine slots_loop' hB Ψ regs sz hrl (fun b => (S' b).psi) (fun b => (S' b).reg) (drawPos us pos) ?_
      intro b hbB Ψ' regs' hΨ hregs
      have hget : regs'[b]? = some (S b).reg := by rw [hregs]; exact hh.reg_get hbB
      have hpsi : slotOf n b Ψ' = (S b).psi := by rw [hΨ]; exact hh.psi b hbB
      obtain ⟨t, ht, hrw⟩ := hraw b hbB
      unfold slotParams at ht
      rw [hk] at ht
      unfold PGate.SlotRun
      rw [show v[b]? = some t from ht]
      dsimp only
      unfold SlotStep
      dsimp only
      rw [hget, drawPos_succ]
      exact ⟨_, by rw [hpsi]; exact (PGate.runsOnView_iff (g := .prob tb) (instr_inPlace (hv.resolve_right id) hb)).2 hrw, rfl⟩

/-! ## the loop -/

/-- one entry with its condition -/
def lineStepB (L B n : Nat) (rnd : Nat → ℝ) (params : String → Option (List ℝ)) (p : Option Condition × Item)
    (s s' : BContext × U64) (f : Option Fault) : Prop :=
  match p.1 with
  | some cond => SeqRun (Item.CondSlot L n rnd params cond p.2) (List.range B) s.1 s'.1 f ∧ s'.2 = s.2
  | none => Item.RunsBatched L B n rnd params p.2 s s' f

theorem circuit_loopB {C : Circuit} (hC : C.conds.length = C.gates.length) {s s' : BContext × U64} {f : Option Fault} :
    SeqRun (C.StepBatched L B n rnd params) (List.range C.gates.length) s s' f ↔
      SeqRun (lineStepB L B n rnd params) (C.conds.zip C.gates) s s' f := by
  refine seqRun_congr (forall2_range _ _ (by simp [hC]) _ fun i hi c c' f => ?_)
  rw [List.length_zip] at hi
  rw [List.getElem_zip]
  unfold Circuit.StepBatched lineStepB
  rw [List.getElem?_eq_getElem (by omega), List.getElem?_eq_getElem (by omega)]
  dsimp only
  cases C.conds[i] with
  | none => exact Iff.rfl
  | some f => exact Iff.rfl

theorem line_stepB (hb : l.instr.build = .ok g) (hok : l.instr.OK) (hL : LanesOK L) (hn : n < 64) (hB : B * 2 ^ n ≤ 2 ^ 64)
    (hB0 : 0 < B) (hq : ∀ q ∈ l.instr.qubits, q < n) (hv : l.InPlace) (hlen : ∀ k v, l.instr.key? = some k → params k = some v → v.length = B)
    (he : ∀ b, b < B → l.Effect n (slotParams params b) (S b) (us b) (S' b))
    (hr : ∀ i (hi : i < ((List.range B).flatMap us).length), rnd (pos + i) = ((List.range B).flatMap us)[i])
    (hh : Holds B n sz Ψ0 S Ψ regs) {m : U64} (hm : ∀ b, b < B → MaskIn m (S b)) :
    ∃ m', (∀ b, b < B → MaskIn m' (S' b)) ∧ lineStepB L B n rnd params (l.cond, g) (⟨Ψ, ⟨sz, regs⟩, pos⟩, m)
      (⟨ofSlots B n (fun b => (S' b).psi) Ψ, ⟨sz, (List.range B).map fun b => (S' b).reg⟩,
        pos + ((List.range B).flatMap us).length⟩, m') none := by
  unfold lineStepB
  cases hf : l.cond with
  | some f =>
    refine ⟨m, fun b hbB i hi => (effect_measured hb (he b hbB)).1 i (hm b hbB i hi), ?_, rfl⟩
    exact cond_line hb hok hL hn hB hq (hv.resolve_right fun h => by simp [hf] at h) hf he hr hh
  | none =>
    have hc : ∀ b, l.CondIs (S b).reg true := fun b => by unfold Line.CondIs; rw [hf]
    have hz : m &&& Item.operandMask g = 0 := (and_zero_iff _ _).2 fun i h1 h2 =>
      effect_free (he 0 hB0) (hc 0) i (hm 0 hB0 i h1) ((item_mask hb hok i).1 h2)
    have hrun := plain_line hb hok hL hn hB hB0 hq (hv.imp_right And.right) hf hlen he hr hh
    refine ⟨m ||| addedMask g, fun b hbB i hi => ?_, ?_⟩
    · rw [BitVec.getLsbD_or, Bool.or_eq_true] at hi
      rcases hi with hi | hi
      · exact (effect_measured hb (he b hbB)).1 i (hm b hbB i hi)
      · exact (effect_measured hb (he b hbB)).2 (hc b) i hi
    · dsimp only
      unfold Item.RunsBatched
      dsimp only
      rw [if_neg (by simpa using hz)]
      rcases g with g | ⟨p, key⟩
      · exact ⟨hrun, rfl⟩
      · obtain ⟨v, hv, hrun⟩ := hrun
        dsimp only
        rw [hv]
        exact ⟨hrun, by simp [addedMask]⟩

theorem history_runB {ls : List Line} {gs : List Item} (hb : ls.mapM (fun l => l.instr.build) = .ok gs) (hok : ∀ l ∈ ls, l.instr.OK)
    (hL : LanesOK L) (hn : n < 64) (hB : B * 2 ^ n ≤ 2 ^ 64) (hB0 : 0 < B) (hq : ∀ l ∈ ls, ∀ q ∈ l.instr.qubits, q < n) (hv : ∀ l ∈ ls, l.InPlace)
    (hlen : ∀ l ∈ ls, ∀ k v, l.instr.key? = some k → params k = some v → v.length = B)
    {uss : List (Nat → List ℝ)} (hlu : uss.length = ls.length)
    (hist : ∀ b, b < B → History n (slotParams params b) ls (S b) (uss.map (· b)) (S' b))
    (hr : ∀ i (hi : i < (uss.flatMap fun us => (List.range B).flatMap us).length),
      rnd (pos + i) = (uss.flatMap fun us => (List.range B).flatMap us)[i])
    (hh : Holds B n sz Ψ0 S Ψ regs) {m : U64} (hm : ∀ b, b < B → MaskIn m (S b)) :
    ∃ m' Ψ' regs', Holds B n sz Ψ0 S' Ψ' regs' ∧
      SeqRun (lineStepB L B n rnd params) ((ls.map (·.cond)).zip gs) (⟨Ψ, ⟨sz, regs⟩, pos⟩, m)
      (⟨Ψ', ⟨sz, regs'⟩, pos + (uss.flatMap fun us => (List.range B).flatMap us).length⟩, m') none := by
  induction ls generalizing gs pos m S Ψ regs uss with
  | nil =>
    cases hb
    obtain rfl : uss = [] := List.length_eq_zero_iff.1 hlu
    refine ⟨m, Ψ, regs, ?_, .nil _⟩
    have e : ∀ b, b < B → S' b = S b := fun b hbB => by
      have := hist b hbB
      generalize S' b = x at this
      generalize S b = y at this
      cases this
      rfl
    refine ⟨fun b hbB => ?_, ?_, fun b hbB => ?_, hh.rest⟩
    · rw [e b hbB]; exact hh.psi b hbB
    · rw [hh.regs]
      apply List.map_congr_left
      intro b hbm
      rw [e b (List.mem_range.1 hbm)]
    · rw [e b hbB]; exact hh.len b hbB
  | cons l ls ih =>
    rw [List.mapM_cons] at hb
    obtain ⟨g, hg, hb⟩ := bind_ok hb
    obtain ⟨gs', hgs, hb⟩ := bind_ok hb
    cases hb
    cases uss with
    | nil => simp at hlu
    | cons us uss =>
      have hex : ∀ b, ∃ s1, b < B → l.Effect n (slotParams params b) (S b) (us b) s1 ∧
          History n (slotParams params b) ls s1 (uss.map (· b)) (S' b) := by
        intro b
        by_cases hbB : b < B
        · have := hist b hbB
          rw [List.map_cons] at this
          cases this with
          | cons _ _ _ s1 _ _ _ h1 h2 => exact ⟨s1, fun _ => ⟨h1, h2⟩⟩
        · exact ⟨S b, fun h => absurd h hbB⟩
      choose S1 hS1 using hex
      simp only [List.flatMap_cons, List.length_append] at hr ⊢
      obtain ⟨m1, hm1, h1⟩ := line_stepB hg (hok l List.mem_cons_self) hL hn hB hB0 (hq l List.mem_cons_self) (hv l List.mem_cons_self)
        (hlen l List.mem_cons_self) (fun b hbB => (hS1 b hbB).1) (rnd := rnd) (pos := pos)
        (fun i hi => by rw [hr i (by omega), List.getElem_append_left]) hh hm
      obtain ⟨m2, Ψ', regs', hh', h2⟩ := ih hgs (fun l hl => hok l (List.mem_cons_of_mem _ hl))
        (fun l hl => hq l (List.mem_cons_of_mem _ hl)) (fun l hl => hv l (List.mem_cons_of_mem _ hl)) (fun l hl => hlen l (List.mem_cons_of_mem _ hl)) (by simpa using hlu)
        (fun b hbB => (hS1 b hbB).2) (pos := pos + ((List.range B).flatMap us).length) (fun i hi => by
          rw [Nat.add_assoc, hr (((List.range B).flatMap us).length + i) (by omega), List.getElem_append_right (by omega)]
          simp) (holds_next hB hh fun b hbB => (hS1 b hbB).1) hm1
      rw [Nat.add_assoc] at h2
      exact ⟨m2, Ψ', regs', hh', .cons _ _ _ _ _ _ h1 h2⟩

/-! ## uniqueness -/

theorem PGate.runsBatched_unique {v : List ℝ} {p : PGate} {c c1 c2 : BContext} {f1 f2 : Option Fault}
    (h1 : p.RunsBatched L B n rnd v c c1 f1) (h2 : p.RunsBatched L B n rnd v c c2 f2) : c1 = c2 ∧ f1 = f2 := by
  cases p with
  | rot r =>
    unfold PGate.RunsBatched at h1 h2
    dsimp only at h1 h2
    unfold PRot.RunsBatched at h1 h2
    cases hc : checkWithinBounds r.operands n with
    | error e => rw [hc] at h1 h2; exact ⟨h1.1.trans h2.1.symm, h1.2.trans h2.2.symm⟩
    | ok _ =>
      rw [hc] at h1 h2
      dsimp only at h1 h2
      by_cases hl : B ≤ v.length
      · rw [dif_pos hl] at h1 h2
        obtain ⟨a1, b1, d1, m1, r1, e1⟩ := h1
        obtain ⟨a2, b2, d2, m2, r2, e2⟩ := h2
        have := Runs.unique r1 r2
        have hm : m1 = m2 := by
          funext x y
          exact congrFun this (x, y)
        subst hm
        exact ⟨BContext.ext (e1.trans e2.symm) (b1.trans b2.symm) (d1.trans d2.symm), a1.trans a2.symm⟩
      · rw [dif_neg hl] at h1 h2
        exact ⟨h1.1.trans h2.1.symm, h1.2.trans h2.2.symm⟩
  | prob t =>
    refine SeqRun.unique (fun i c c1 f1 c2 f2 h1 h2 => ?_) h1 h2
    unfold PGate.SlotRun at h1 h2
    cases hv : v[i]? with
    | none => rw [hv] at h1 h2; exact ⟨h1.1.trans h2.1.symm, h1.2.trans h2.2.symm⟩
    | some x =>
      rw [hv] at h1 h2
      dsimp only at h1 h2
      exact slotStep_unique (run := PGate.RunsOnView L n rnd x (.prob t)) (fun _ _ _ _ _ a b => PGate.runsOnView_unique a b) _ _ _ _ _ _ h1 h2

theorem condSlot_unique {f : Condition} (i : Nat) (c c1 : BContext) (f1 : Option Fault) (c2 : BContext) (f2 : Option Fault)
    (h1 : Item.CondSlot L n rnd params f g i c c1 f1) (h2 : Item.CondSlot L n rnd params f g i c c2 f2) : c1 = c2 ∧ f1 = f2 := by
  unfold Item.CondSlot at h1 h2
  cases hg : c.reg.regs[i]? with
  | none => rw [hg] at h1 h2; exact ⟨h1.1.trans h2.1.symm, h1.2.trans h2.2.symm⟩
  | some r =>
    rw [hg] at h1 h2
    dsimp only at h1 h2
    cases hf : f r with
    | error e => rw [hf] at h1 h2; exact ⟨h1.1.trans h2.1.symm, h1.2.trans h2.2.symm⟩
    | ok b =>
      rw [hf] at h1 h2
      cases b with
      | false => exact ⟨h1.1.trans h2.1.symm, h1.2.trans h2.2.symm⟩
      | true =>
        rcases g with g | ⟨p, key⟩
        · dsimp only at h1 h2
          exact slotStep_unique (run := Gate.RunsOnView L n rnd g) (fun _ _ _ _ _ a b => Gate.runsOnView_unique a b) _ _ _ _ _ _ h1 h2
        · dsimp only at h1 h2
          cases hk : params key with
          | none => rw [hk] at h1 h2; exact ⟨h1.1.trans h2.1.symm, h1.2.trans h2.2.symm⟩
          | some v =>
            rw [hk] at h1 h2
            dsimp only at h1 h2
            cases hv : v[i]? with
            | none => rw [hv] at h1 h2; exact ⟨h1.1.trans h2.1.symm, h1.2.trans h2.2.symm⟩
            | some x =>
              rw [hv] at h1 h2
              dsimp only at h1 h2
              exact slotStep_unique (run := PGate.RunsOnView L n rnd x p) (fun _ _ _ _ _ a b => PGate.runsOnView_unique a b) _ _ _ _ _ _ h1 h2

theorem Item.runsBatched_unique {s s1 s2 : BContext × U64} {f1 f2 : Option Fault}
    (h1 : Item.RunsBatched L B n rnd params g s s1 f1) (h2 : Item.RunsBatched L B n rnd params g s s2 f2) : s1 = s2 ∧ f1 = f2 := by
  unfold Item.RunsBatched at h1 h2
  by_cases hm : s.2 &&& Item.operandMask g ≠ 0
  · rw [if_pos hm] at h1 h2; exact ⟨h1.1.trans h2.1.symm, h1.2.trans h2.2.symm⟩
  · rw [if_neg hm] at h1 h2
    rcases g with g | ⟨p, key⟩
    · obtain ⟨e1, e2⟩ := Gate.runsBatched_unique h1.1 h2.1
      subst e2
      exact ⟨Prod.ext e1 (h1.2.trans h2.2.symm), rfl⟩
    · dsimp only at h1 h2
      cases hk : params key with
      | none => rw [hk] at h1 h2; exact ⟨h1.1.trans h2.1.symm, h1.2.trans h2.2.symm⟩
      | some t =>
        rw [hk] at h1 h2
        obtain ⟨e1, e2⟩ := PGate.runsBatched_unique h1.1 h2.1
        exact ⟨Prod.ext e1 (h1.2.trans h2.2.symm), e2⟩

theorem stepBatched_unique {C : Circuit} (i : Nat) (s s1 : BContext × U64) (f1 : Option Fault) (s2 : BContext × U64)
    (f2 : Option Fault) (h1 : C.StepBatched L B n rnd params i s s1 f1) (h2 : C.StepBatched L B n rnd params i s s2 f2) :
    s1 = s2 ∧ f1 = f2 := by
  unfold Circuit.StepBatched at h1 h2
  cases hc : C.conds[i]? with
  | none => rw [hc] at h1 h2; exact ⟨h1.1.trans h2.1.symm, h1.2.trans h2.2.symm⟩
  | some c =>
    cases hg : C.gates[i]? with
    | none => rw [hc, hg] at h1 h2; cases c <;> exact ⟨h1.1.trans h2.1.symm, h1.2.trans h2.2.symm⟩
    | some g =>
      rw [hc, hg] at h1 h2
      cases c with
      | none => exact Item.runsBatched_unique h1 h2
      | some f =>
        obtain ⟨e1, e2⟩ := SeqRun.unique condSlot_unique h1.1 h2.1
        exact ⟨Prod.ext e1 (h1.2.trans h2.2.symm), e2⟩

theorem Circuit.runsBatched_unique {C : Circuit} {reg : BReg} {c1 c2 : BContext} {f1 f2 : Option Fault}
    (h1 : C.RunsBatched L B n rnd params Ψ reg c1 f1) (h2 : C.RunsBatched L B n rnd params Ψ reg c2 f2) : c1 = c2 ∧ f1 = f2 := by
  unfold Circuit.RunsBatched at h1 h2
  cases hc : C.checkBatched B n reg params with
  | error e => rw [hc] at h1 h2; exact ⟨h1.1.trans h2.1.symm, h1.2.trans h2.2.symm⟩
  | ok _ =>
    rw [hc] at h1 h2
    obtain ⟨m1, h1⟩ := h1
    obtain ⟨m2, h2⟩ := h2
    obtain ⟨e1, e2⟩ := SeqRun.unique stepBatched_unique h1 h2
    injection e1 with e1 _
    exact ⟨e1, e2⟩

theorem checkKeysBatched_iff {gs : List Item} :
    (checkKeysBatched B params gs = .ok () ↔ ∀ p k, Sum.inr (p, k) ∈ gs → ∃ v, params k = some v ∧ v.length = B) ∧
    (∀ e, checkKeysBatched B params gs = .error e → ∃ s, e = .throw s) := by
  induction gs with
  | nil => exact ⟨⟨fun _ _ _ h => by simp at h, fun _ => rfl⟩, fun e h => by cases h⟩
  | cons g gs ih =>
    rcases g with g | ⟨p, k⟩
    · refine ⟨?_, ih.2⟩
      rw [show checkKeysBatched B params (Sum.inl g :: gs) = checkKeysBatched B params gs from rfl, ih.1]
      simp
    · unfold checkKeysBatched
      cases hk : params k with
      | none =>
        refine ⟨⟨fun h => (by cases h), fun h => ?_⟩, fun e h => ?_⟩
        · obtain ⟨v, hv, -⟩ := h p k List.mem_cons_self
          rw [hk] at hv; cases hv
        · injection h with h
          exact ⟨_, h.symm⟩
      | some v =>
        dsimp only
        by_cases hv : v.length ≠ B
        · rw [if_pos hv]
          refine ⟨⟨fun h => (by cases h), fun h => ?_⟩, fun e h => ?_⟩
          · obtain ⟨v', hv', hl⟩ := h p k List.mem_cons_self
            rw [hk] at hv'; cases hv'; exact absurd hl hv
          · injection h with h
            exact ⟨_, h.symm⟩
        · rw [if_neg hv]
          refine ⟨?_, ih.2⟩
          rw [ih.1]
          constructor
          · intro h p' k' hm
            rcases List.mem_cons.1 hm with e | hm
            · injection e with e; injection e with e1 e2; subst e2; exact ⟨v, hk, by omega⟩
            · exact h p' k' hm
          · exact fun h p' k' hm => h p' k' (List.mem_cons_of_mem _ hm)

end Verif.Proofs
