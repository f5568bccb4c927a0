import Verif.Spec.EntryPoints
import Verif.Proofs.CircuitBatched

/-! # Calls of `update_quantum_state` and the runs behind them -/

namespace Verif.Proofs
open Verif Verif.Spec Verif.Model
attribute [-simp] BitVec.getLsbD_eq_getElem

theorem seeded_getD (R : Rng) (seed : Option Nat) : R.seeded (some (seed.getD R.entropy)) = R.seeded seed := by
  cases seed <;> rfl

theorem seeded_draws {R : Rng} {seed : Option Nat} {us : List ℝ} (h : Seeded R seed us) (i : Nat) (hi : i < us.length) :
    R.seeded seed i = us[i] := by
  have := h i hi
  cases seed <;> exact this

theorem zeros_rows {B : Nat} {rows : List (List Bool)} (hl : rows.length = B) (h : ∀ r ∈ rows, r = []) :
    BReg.zeros 0 B = ⟨0, rows⟩ := by
  unfold BReg.zeros
  congr 1
  symm
  rw [List.eq_replicate_iff]
  exact ⟨hl, h⟩

section
variable {R : Rng} {L B n : Nat} {seed : Option Nat}

theorem gate_update {g : Gate} {a a' : RegArg} {bits : List Bool} (hb : Bits a bits) {ψ ψ' : U64 → ℂ} {f : Option Fault} :
    g.Update R L n ψ a seed ψ' a' f ↔ ∃ c', g.RunsOn L n (R.seeded seed) ⟨ψ, bits, 0⟩ c' f ∧ ψ' = c'.psi ∧ Stored a c'.reg a' := by
  cases hb with
  | absent =>
    unfold Gate.Update
    dsimp only
    constructor
    · rintro ⟨rfl, h⟩
      cases seed with
      | none => obtain ⟨c', h, e⟩ := h; exact ⟨c', h, e, .absent _⟩
      | some s => obtain ⟨r', c', h, e, -⟩ := h; exact ⟨c', h, e, .absent _⟩
    · rintro ⟨c', h, e, hs⟩
      cases hs
      refine ⟨rfl, ?_⟩
      cases seed with
      | none => exact ⟨c', h, e⟩
      | some s => exact ⟨_, c', h, e, rfl⟩
  | single =>
    unfold Gate.Update Gate.CallReg
    dsimp only
    rw [seeded_getD]
    constructor
    · rintro ⟨reg', ⟨c', h, e, rfl⟩, rfl⟩
      exact ⟨c', h, e, .single _ _⟩
    · rintro ⟨c', h, e, hs⟩
      cases hs
      exact ⟨_, ⟨c', h, e, rfl⟩, rfl⟩

theorem param_update {p : PGate} {t : ℝ} {a a' : RegArg} {bits : List Bool} (hb : Bits a bits) {ψ ψ' : U64 → ℂ} {f : Option Fault} :
    p.Update R L n (.number t) ψ a seed ψ' a' f ↔
      ∃ c', p.RunsOn L n (R.seeded seed) t ⟨ψ, bits, 0⟩ c' f ∧ ψ' = c'.psi ∧ Stored a c'.reg a' := by
  cases hb with
  | absent =>
    unfold PGate.Update
    dsimp only
    constructor
    · rintro ⟨rfl, h⟩
      cases seed with
      | none => obtain ⟨c', h, e⟩ := h; exact ⟨c', h, e, .absent _⟩
      | some s => obtain ⟨r', c', h, e, -⟩ := h; exact ⟨c', h, e, .absent _⟩
    · rintro ⟨c', h, e, hs⟩
      cases hs
      refine ⟨rfl, ?_⟩
      cases seed with
      | none => exact ⟨c', h, e⟩
      | some s => exact ⟨_, c', h, e, rfl⟩
  | single =>
    unfold PGate.Update PGate.CallReg
    dsimp only
    rw [seeded_getD]
    constructor
    · rintro ⟨reg', ⟨c', h, e, rfl⟩, rfl⟩
      exact ⟨c', h, e, .single _ _⟩
    · rintro ⟨c', h, e, hs⟩
      cases hs
      exact ⟨_, ⟨c', h, e, rfl⟩, rfl⟩

/-- the register argument after a batched call -/
def batchReg (a : RegArg) (r : BReg) : RegArg :=
  match a with
  | .batched _ => .batched r
  | x => x

theorem gate_callBatchReg {g : Gate} {reg reg' : BReg} (h : reg.regs.length = B) {Ψ Ψ' : U64 → ℂ} {f : Option Fault} :
    g.CallBatchReg R L B n seed Ψ reg Ψ' reg' f ↔
      ∃ c', g.RunsBatched L B n (R.seeded seed) ⟨Ψ, reg, 0⟩ c' f ∧ Ψ' = c'.psi ∧ reg' = c'.reg := by
  unfold Gate.CallBatchReg
  rw [if_neg (by simp [h])]

theorem param_callBatchReg {p : PGate} {ts : List ℝ} (ht : ts.length = B) {reg reg' : BReg} (h : reg.regs.length = B)
    {Ψ Ψ' : U64 → ℂ} {f : Option Fault} : p.CallBatchReg R L B n ts seed Ψ reg Ψ' reg' f ↔
      ∃ c', p.RunsBatched L B n (R.seeded seed) ts ⟨Ψ, reg, 0⟩ c' f ∧ Ψ' = c'.psi ∧ reg' = c'.reg := by
  unfold PGate.CallBatchReg
  rw [if_neg (by simp [h]), if_neg (by simp [ht])]

theorem gate_updateBatch {g : Gate} {a a' : RegArg} {sz : Nat} {rows : List (List Bool)} (hr : Rows B a sz rows) {Ψ Ψ' : U64 → ℂ}
    {f : Option Fault} : g.UpdateBatch R L B n Ψ a seed Ψ' a' f ↔
      ∃ c', g.RunsBatched L B n (R.seeded seed) ⟨Ψ, ⟨sz, rows⟩, 0⟩ c' f ∧ Ψ' = c'.psi ∧ a' = batchReg a c'.reg := by
  cases hr with
  | absent rows hl hz =>
    unfold Gate.UpdateBatch Gate.CallBatch
    dsimp only
    rw [zeros_rows hl hz]
    simp only [gate_callBatchReg (reg := ⟨0, rows⟩) hl]
    constructor
    · rintro ⟨rfl, h⟩
      cases seed with
      | none => obtain ⟨c', h, e⟩ := h; exact ⟨c', h, e, rfl⟩
      | some s => obtain ⟨r', c', h, e, -⟩ := h; exact ⟨c', h, e, rfl⟩
    · rintro ⟨c', h, e, hs⟩
      refine ⟨hs, ?_⟩
      cases seed with
      | none => exact ⟨c', h, e⟩
      | some s => exact ⟨_, c', h, e, rfl⟩
  | batched _ _ hl hz =>
    unfold Gate.UpdateBatch
    dsimp only
    simp only [gate_callBatchReg (reg := ⟨sz, rows⟩) hl, seeded_getD]
    constructor
    · rintro ⟨reg', ⟨c', h, e, rfl⟩, rfl⟩
      exact ⟨c', h, e, rfl⟩
    · rintro ⟨c', h, e, hs⟩
      exact ⟨_, ⟨c', h, e, rfl⟩, hs⟩

theorem param_updateBatch {p : PGate} {ts : List ℝ} (ht : ts.length = B) {a a' : RegArg} {sz : Nat} {rows : List (List Bool)}
    (hr : Rows B a sz rows) {Ψ Ψ' : U64 → ℂ} {f : Option Fault} : p.UpdateBatch R L B n (.sequence ts) Ψ a seed Ψ' a' f ↔
      ∃ c', p.RunsBatched L B n (R.seeded seed) ts ⟨Ψ, ⟨sz, rows⟩, 0⟩ c' f ∧ Ψ' = c'.psi ∧ a' = batchReg a c'.reg := by
  cases hr with
  | absent rows hl hz =>
    unfold PGate.UpdateBatch PGate.CallBatch
    dsimp only
    rw [zeros_rows hl hz]
    simp only [param_callBatchReg ht (reg := ⟨0, rows⟩) hl]
    constructor
    · rintro ⟨rfl, h⟩
      cases seed with
      | none => obtain ⟨c', h, e⟩ := h; exact ⟨c', h, e, rfl⟩
      | some s => obtain ⟨r', c', h, e, -⟩ := h; exact ⟨c', h, e, rfl⟩
    · rintro ⟨c', h, e, hs⟩
      refine ⟨hs, ?_⟩
      cases seed with
      | none => exact ⟨c', h, e⟩
      | some s => exact ⟨_, c', h, e, rfl⟩
  | batched _ _ hl hz =>
    unfold PGate.UpdateBatch
    dsimp only
    simp only [param_callBatchReg ht (reg := ⟨sz, rows⟩) hl, seeded_getD]
    constructor
    · rintro ⟨reg', ⟨c', h, e, rfl⟩, rfl⟩
      exact ⟨c', h, e, rfl⟩
    · rintro ⟨c', h, e, hs⟩
      exact ⟨_, ⟨c', h, e, rfl⟩, hs⟩

/-- a run with one outcome, seen as a call -/
theorem ends_of {run : Context → Option Fault → Prop} {call : Outcomes} {a : RegArg} {bits : List Bool} (hb : Bits a bits)
    (hcall : ∀ ψ' a' f, call ψ' a' f ↔ ∃ c', run c' f ∧ ψ' = c'.psi ∧ Stored a c'.reg a') {ψ : U64 → ℂ} {bits' : List Bool} {pos : Nat}
    (hrun : ∀ c' f, run c' f ↔ c' = ⟨ψ, bits', pos⟩ ∧ f = none) : ∃ a', Stored a bits' a' ∧ Ends call ψ a' := by
  have hex : ∃ a', Stored a bits' a' ∧ ∀ a'', Stored a bits' a'' → a'' = a' := by
    cases hb with
    | absent => exact ⟨_, .absent _, fun _ h => by cases h; rfl⟩
    | single => exact ⟨_, .single _ _, fun _ h => by cases h; rfl⟩
  obtain ⟨a', hs, hu⟩ := hex
  refine ⟨a', hs, fun ψ' a'' f => ?_⟩
  rw [hcall]
  constructor
  · rintro ⟨c', h, e, hs'⟩
    obtain ⟨rfl, rfl⟩ := (hrun _ _).1 h
    exact ⟨e, hu _ hs', rfl⟩
  · rintro ⟨rfl, rfl, rfl⟩
    exact ⟨_, (hrun _ _).2 ⟨rfl, rfl⟩, rfl, hs⟩

/-- a run that throws at once, seen as a call -/
theorem refused_of {run : Context → Option Fault → Prop} {call : Outcomes} {a : RegArg} {bits : List Bool} (hb : Bits a bits)
    (hcall : ∀ ψ' a' f, call ψ' a' f ↔ ∃ c', run c' f ∧ ψ' = c'.psi ∧ Stored a c'.reg a') {ψ : U64 → ℂ} {pos : Nat} {e : String}
    (hrun : ∀ c' f, run c' f ↔ c' = ⟨ψ, bits, pos⟩ ∧ f = some (.throw e)) : Refused call ψ a := by
  refine ⟨e, fun ψ' a' f => ?_⟩
  rw [hcall]
  constructor
  · rintro ⟨c', h, h2, hs⟩
    obtain ⟨rfl, rfl⟩ := (hrun _ _).1 h
    refine ⟨h2, ?_, rfl⟩
    cases hb <;> cases hs <;> rfl
  · rintro ⟨rfl, rfl, rfl⟩
    refine ⟨_, (hrun _ _).2 ⟨rfl, rfl⟩, rfl, ?_⟩
    cases hb
    · exact .absent _
    · exact .single _ _

theorem batchReg_same {a : RegArg} {sz : Nat} {rows : List (List Bool)} (hr : Rows B a sz rows) : batchReg a ⟨sz, rows⟩ = a := by
  cases hr <;> rfl

theorem refusedB_of {run : BContext → Option Fault → Prop} {call : Outcomes} {a : RegArg} {sz : Nat} {rows : List (List Bool)}
    (hr : Rows B a sz rows) (hcall : ∀ ψ' a' f, call ψ' a' f ↔ ∃ c', run c' f ∧ ψ' = c'.psi ∧ a' = batchReg a c'.reg) {ψ : U64 → ℂ}
    {pos : Nat} {e : String} (hrun : ∀ c' f, run c' f ↔ c' = ⟨ψ, ⟨sz, rows⟩, pos⟩ ∧ f = some (.throw e)) : Refused call ψ a := by
  refine ⟨e, fun ψ' a' f => ?_⟩
  rw [hcall]
  constructor
  · rintro ⟨c', h, h2, hs⟩
    obtain ⟨rfl, rfl⟩ := (hrun _ _).1 h
    exact ⟨h2, hs.trans (batchReg_same hr), rfl⟩
  · rintro ⟨rfl, rfl, rfl⟩
    exact ⟨_, (hrun _ _).2 ⟨rfl, rfl⟩, rfl, (batchReg_same hr).symm⟩

theorem rows_stored {a : RegArg} {sz : Nat} {rows new : List (List Bool)} (hr : Rows B a sz rows) (hl : new.length = B)
    {bits : Nat → List Bool} (hb : ∀ b < B, new[b]? = some (bits b)) : RowsStored B a bits (batchReg a ⟨sz, new⟩) := by
  cases hr with
  | absent => exact .absent _
  | batched => exact .batched _ _ _ _ hl hb

theorem batchEnds_of {run : BContext → Option Fault → Prop} {call : Outcomes} {a : RegArg} {sz : Nat} {rows : List (List Bool)}
    (hr : Rows B a sz rows) (hcall : ∀ ψ' a' f, call ψ' a' f ↔ ∃ c', run c' f ∧ ψ' = c'.psi ∧ a' = batchReg a c'.reg) {Ψ : U64 → ℂ}
    {c : BContext} (hrun : ∀ c' f, run c' f ↔ c' = c ∧ f = none) {ψ' : Nat → U64 → ℂ} {bits : Nat → List Bool}
    (hslots : ∀ b < B, slotOf n b c.psi = ψ' b ∧ c.reg.regs[b]? = some (bits b)) (hl : c.reg.regs.length = B) (hs : c.reg.size = sz)
    (hrest : ∀ j : U64, ¬ j.toNat < B * 2 ^ n → c.psi j = Ψ j) : BatchEnds call B n Ψ a ψ' bits := by
  obtain ⟨psi, ⟨s, new⟩, pos⟩ := c
  cases hs
  refine ⟨psi, batchReg a ⟨s, new⟩, fun ψ1 a1 f => ?_, rows_stored hr hl fun b hb => (hslots b hb).2, fun b hb => (hslots b hb).1, hrest⟩
  rw [hcall]
  constructor
  · rintro ⟨c', h, h2, h3⟩
    obtain ⟨rfl, rfl⟩ := (hrun _ _).1 h
    exact ⟨h2, h3, rfl⟩
  · rintro ⟨rfl, rfl, rfl⟩
    exact ⟨_, (hrun _ _).2 ⟨rfl, rfl⟩, rfl, rfl⟩

theorem rows_length {a : RegArg} {sz : Nat} {rows : List (List Bool)} (hr : Rows B a sz rows) :
    rows.length = B ∧ ∀ r ∈ rows, r.length = sz := by
  cases hr with
  | absent _ hl hz => exact ⟨hl, fun r h => by rw [hz r h]; rfl⟩
  | batched _ _ hl hz => exact ⟨hl, hz⟩

/-- the situations at the start of a batched call -/
def startAt (n : Nat) (Ψ : U64 → ℂ) (rows : List (List Bool)) (b : Nat) : Situation :=
  ⟨slotOf n b Ψ, if hb : b < rows.length then rows[b] else [], []⟩

theorem holds_start {a : RegArg} {sz : Nat} {rows : List (List Bool)} (hr : Rows B a sz rows) (Ψ : U64 → ℂ) :
    Holds B n sz Ψ (startAt n Ψ rows) Ψ rows := by
  obtain ⟨hl, hz⟩ := rows_length hr
  refine ⟨fun b _ => rfl, ?_, fun b hb => ?_, fun j _ => rfl⟩
  · apply List.ext_getElem
    · simp [hl]
    · intro i h1 h2
      simp [startAt, h1]
  · have : b < rows.length := by omega
    simp only [startAt, dif_pos this]
    exact hz _ (List.getElem_mem this)

end

/-! ## parameters of circuits -/

theorem kwLoop_given {α : Type} (cast : KwValue → Res α) {p : String × KwValue} {kw : List (String × KwValue)} {m : String → Option α} :
    kwLoop true cast (p :: kw) m = .error (.throw "parameters were specified both as dict and kwargs.") := by
  unfold kwLoop
  rw [if_pos rfl]

theorem kwLoop_ok {α : Type} {cast : KwValue → Res α} {kw : List (String × KwValue)} (m : String → Option α)
    (hn : (kw.map (·.1)).Nodup) (hc : ∀ k v, (k, v) ∈ kw → ∃ t, cast v = .ok t) :
    ∃ m', kwLoop false cast kw m = .ok m' ∧ ∀ k t, m' k = some t ↔
      ((∃ v, (k, v) ∈ kw ∧ cast v = .ok t) ∨ (k ∉ kw.map (·.1) ∧ m k = some t)) := by
  induction kw generalizing m with
  | nil => exact ⟨m, rfl, fun k t => by simp⟩
  | cons p kw ih =>
    obtain ⟨k0, v0⟩ := p
    rw [List.map_cons, List.nodup_cons] at hn
    obtain ⟨t0, ht0⟩ := hc k0 v0 (List.mem_cons_self ..)
    obtain ⟨m', hm', hiff⟩ := ih (fun k' => if k' = k0 then some t0 else m k') hn.2 fun k v h => hc k v (List.mem_cons_of_mem _ h)
    refine ⟨m', ?_, fun k t => ?_⟩
    · rw [kwLoop, if_neg (by simp), ht0]
      exact hm'
    · rw [hiff]
      by_cases hk : k = k0
      · subst hk
        have hno : ∀ v, (k, v) ∉ kw := fun v h => hn.1 (List.mem_map.2 ⟨_, h, rfl⟩)
        rw [if_pos rfl]
        constructor
        · rintro (⟨v, hv, -⟩ | ⟨-, h⟩)
          · exact absurd hv (hno v)
          · cases h
            exact .inl ⟨v0, List.mem_cons_self .., ht0⟩
        · rintro (⟨v, hv, h⟩ | ⟨h, -⟩)
          · rcases List.mem_cons.1 hv with e | hv
            · cases e
              rw [ht0] at h
              cases h
              exact .inr ⟨hn.1, rfl⟩
            · exact absurd hv (hno v)
          · exact absurd (List.mem_cons_self ..) h
      · rw [if_neg hk]
        constructor
        · rintro (⟨v, hv, h⟩ | ⟨h1, h2⟩)
          · exact .inl ⟨v, List.mem_cons_of_mem _ hv, h⟩
          · exact .inr ⟨by rw [List.map_cons, List.mem_cons]; rintro (h | h); exacts [hk h, h1 h], h2⟩
        · rintro (⟨v, hv, h⟩ | ⟨h1, h2⟩)
          · rcases List.mem_cons.1 hv with e | hv
            · cases e; exact absurd rfl hk
            · exact .inl ⟨v, hv, h⟩
          · exact .inr ⟨fun h => h1 (by rw [List.map_cons]; exact List.mem_cons_of_mem _ h), h2⟩

theorem lookup_mem {α : Type} {d : List (String × α)} (hn : (d.map (·.1)).Nodup) (k : String) (t : α) :
    d.lookup k = some t ↔ (k, t) ∈ d := by
  induction d with
  | nil => simp
  | cons p d ih =>
    obtain ⟨k0, t0⟩ := p
    rw [List.map_cons, List.nodup_cons] at hn
    rw [List.lookup_cons, List.mem_cons]
    by_cases hk : k = k0
    · subst hk
      have hno : ∀ t, (k, t) ∉ d := fun t h => hn.1 (List.mem_map.2 ⟨_, h, rfl⟩)
      simp [hno, eq_comm]
    · rw [show (k == k0) = false by simpa using hk]
      dsimp only
      rw [ih hn.2]
      simp [hk]

theorem singleParams_ok {d : DictArg} {kw : List (String × KwValue)} (h : NumbersOK d kw) :
    ∃ m, singleParams d kw = .ok m ∧ ∀ k t, m k = some t ↔ NumberGiven d kw k t := by
  cases h with
  | dict d hn =>
    refine ⟨fun k => d.lookup k, rfl, fun k t => ?_⟩
    dsimp only
    rw [lookup_mem hn]
    exact ⟨fun h => .dict _ _ _ h, fun h => by cases h; assumption⟩
  | empty => exact ⟨fun _ => none, rfl, fun k t => ⟨fun h => (by cases h), fun h => (by cases h)⟩⟩
  | keyword _ hn hc =>
    obtain ⟨m, hm, hiff⟩ := kwLoop_ok (cast := KwValue.asNumber) (fun _ => none) hn (fun k v h => by
      obtain ⟨t, rfl⟩ := hc k v h; exact ⟨t, rfl⟩)
    refine ⟨m, hm, fun k t => ?_⟩
    rw [hiff]
    constructor
    · rintro (⟨v, hv, h⟩ | ⟨-, h⟩)
      · obtain ⟨t', rfl⟩ := hc k v hv
        cases h
        exact .keyword _ _ _ hv
      · cases h
    · intro h
      cases h with
      | keyword _ _ _ h => exact .inl ⟨_, h, rfl⟩

theorem batchParams_ok {d : DictArg} {kw : List (String × KwValue)} (h : SequencesOK d kw) :
    ∃ m, batchParams d kw = .ok m ∧ ∀ k t, m k = some t ↔ SequenceGiven d kw k t := by
  cases h with
  | dict d hn =>
    refine ⟨fun k => d.lookup k, rfl, fun k t => ?_⟩
    dsimp only
    rw [lookup_mem hn]
    exact ⟨fun h => .dict _ _ _ h, fun h => by cases h; assumption⟩
  | empty => exact ⟨fun _ => none, rfl, fun k t => ⟨fun h => (by cases h), fun h => (by cases h)⟩⟩
  | keyword _ hn hc =>
    obtain ⟨m, hm, hiff⟩ := kwLoop_ok (cast := KwValue.asSequence) (fun _ => none) hn (fun k v h => by
      obtain ⟨t, rfl⟩ := hc k v h; exact ⟨t, rfl⟩)
    refine ⟨m, hm, fun k t => ?_⟩
    rw [hiff]
    constructor
    · rintro (⟨v, hv, h⟩ | ⟨-, h⟩)
      · obtain ⟨t', rfl⟩ := hc k v hv
        cases h
        exact .keyword _ _ _ hv
      · cases h
    · intro h
      cases h with
      | keyword _ _ _ h => exact .inl ⟨_, h, rfl⟩

/-- parameters behind the last slot are not looked at -/
theorem rot_take {p : PRot} {B n : Nat} {ts : List ℝ} (h : B ≤ ts.length) {c c' : BContext} {f : Option Fault} :
    p.RunsBatched B n ts c c' f ↔ p.RunsBatched B n (ts.take B) c c' f := by
  have hl : (ts.take B).length = B := by rw [List.length_take]; omega
  unfold PRot.RunsBatched
  cases checkWithinBounds p.operands n with
  | error e => exact Iff.rfl
  | ok u =>
    dsimp only
    have he : (fun b : Fin B => p.launch n (ts[b.val]'(by omega))) = fun b : Fin B => p.launch n ((ts.take B)[b.val]'(by omega)) := by
      funext b
      rw [List.getElem_take]
    rw [dif_pos h, dif_pos (by omega)]
    exact iff_of_eq (congrArg (fun l : Fin B → Launch ℂ => f = none ∧ c'.reg = c.reg ∧ c'.pos = c.pos ∧ ∃ m',
        Runs (InBatch B (2 ^ n)) (slotPool l) (fun p => slotOf n p.1 c.psi p.2) (fun p => m' p.1 p.2) ∧
        c'.psi = ofSlots B n m' c.psi) he)

end Verif.Proofs
