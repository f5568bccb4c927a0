import Verif.Props.Circuit
import Verif.Proofs.EntryPoints

/-! # C90: the calls `update_quantum_state` of gates, parametric gates and circuits

A call gets a state (or a batch), optionally a classical register (or a batched one), optionally a seed, and parameters.  `Line.Effect`
and `History` (`Spec/Circuit.lean`) say what instructions do; `Ends`, `Refused` (`Spec/EntryPoints.lean`) what a call does. -/

namespace Verif.Props
open Verif Verif.Spec Verif.Model Verif.Proofs
attribute [-simp] BitVec.getLsbD_eq_getElem

/-! ## one state -/

/-- **C90.** A gate called on a state does what the instruction does, with the random numbers of the given seed (fresh ones if there
is none).  A given register receives the bits; without a register the call works with no classical bits at all. -/
theorem C90_gate {ins : Instr} {g : Gate} (hb : ins.build = .ok (.inl g)) (hok : ins.OK) {L n : Nat} (hL : LanesOK L) (hn : n < 64)
    (hq : ∀ q ∈ ins.qubits, q < n) {a : RegArg} {bits : List Bool} (ha : Bits a bits) {R : Rng} {seed : Option Nat} {ψ ψ' : U64 → ℂ}
    {bits' : List Bool} {ms : List Nat} {us : List ℝ} {θ : String → Option ℝ}
    (he : Line.Effect n θ ⟨ins, none⟩ ⟨ψ, bits, []⟩ us ⟨ψ', bits', ms⟩) (hs : Seeded R seed us) :
    ∃ a', Stored a bits' a' ∧ Ends (g.Update R L n ψ a seed) ψ' a' := by
  have hraw := item_raw (l := ⟨ins, none⟩) hb hok hL hn hq he rfl (rnd := R.seeded seed) (pos := 0) fun i hi => by
    rw [Nat.zero_add]; exact seeded_draws hs i hi
  refine ends_of ha (call := g.Update R L n ψ a seed) (run := fun c' f => g.RunsOn L n (R.seeded seed) ⟨ψ, bits, 0⟩ c' f)
    (fun ψ1 a1 f => gate_update ha) (pos := 0 + us.length) fun c' f => ⟨fun h => ?_, ?_⟩
  · exact Proofs.Gate.runsOn_unique h hraw
  · rintro ⟨rfl, rfl⟩
    exact hraw

/-- **C90.** The same for a parametric gate with the parameter `t`. -/
theorem C90_param {ins : Instr} {p : PGate} {key : String} (hb : ins.build = .ok (.inr (p, key))) (hok : ins.OK) {L n : Nat}
    (hL : LanesOK L) (hn : n < 64) (hq : ∀ q ∈ ins.qubits, q < n) {a : RegArg} {bits : List Bool} (ha : Bits a bits) {R : Rng}
    {seed : Option Nat} {ψ ψ' : U64 → ℂ} {bits' : List Bool} {ms : List Nat} {us : List ℝ} {t : ℝ}
    (he : Line.Effect n (fun _ => some t) ⟨ins, none⟩ ⟨ψ, bits, []⟩ us ⟨ψ', bits', ms⟩) (hs : Seeded R seed us) :
    ∃ a', Stored a bits' a' ∧ Ends (p.Update R L n (.number t) ψ a seed) ψ' a' := by
  obtain ⟨t', ht, hraw⟩ := item_raw (l := ⟨ins, none⟩) hb hok hL hn hq he rfl (rnd := R.seeded seed) (pos := 0) fun i hi => by
    rw [Nat.zero_add]; exact seeded_draws hs i hi
  cases ht
  refine ends_of ha (call := p.Update R L n (.number t) ψ a seed)
    (run := fun c' f => p.RunsOn L n (R.seeded seed) t ⟨ψ, bits, 0⟩ c' f) (fun ψ1 a1 f => param_update ha) (pos := 0 + us.length) fun c' f => ⟨fun h => ?_, ?_⟩
  · exact Proofs.PGate.runsOn_unique h hraw
  · rintro ⟨rfl, rfl⟩
    exact hraw

theorem built_usesBits {ls : List Line} {C : Circuit} (hb : buildCircuit ls = .ok C) :
    C.hasClassical = true ↔ ∃ l ∈ ls, l.UsesBits := by
  obtain ⟨gs, hgs, rfl⟩ := buildCircuit_ok hb
  have hmeas : (gs.any fun | .inl (.meas _) => true | _ => false) = true ↔
      ∃ l ∈ ls, ∃ q cbit reset, l.instr = .measure q cbit reset := by
    rw [List.any_eq_true]
    refine mem_built hgs _ _ fun l hl g hg => ?_
    obtain ⟨ins, cond⟩ := l
    cases ins with
    | gate d =>
      obtain ⟨u, hu, hb⟩ := bind_ok (show (do let g ← d.build; pure (Sum.inl (Gate.det g))) = .ok g from hg)
      cases hb; simp
    | rot r k =>
      obtain ⟨p, hp, hb⟩ := bind_ok (show (do let p ← r.build; pure (Sum.inr (PGate.rot p, k))) = .ok g from hg)
      cases hb; simp
    | measure q cbit reset =>
      obtain ⟨u, hu, hb⟩ := bind_ok (show (do let g ← mkMeas q cbit reset; pure (Sum.inl (Gate.meas g))) = .ok g from hg)
      cases hb; simp
    | choice ps ds =>
      obtain ⟨us, hus, hb⟩ := bind_ok (show (do
        let gs ← ds.mapM GateDesc.build
        let g ← mkProbabilistic (ps.map some) (gs.map .det)
        pure (Sum.inl g)) = .ok g from hg)
      obtain ⟨u, hu, hb⟩ := bind_ok hb
      cases hb
      obtain ⟨t, ht, hu⟩ := bind_ok (show (do
        let t ← mkProbTable (ps.map some) ((us.map Gate.det).map Gate.component)
        pure (Gate.prob t)) = .ok u from hu)
      cases hu; simp
    | pchoice ps ls k =>
      obtain ⟨us, hus, hb⟩ := bind_ok (show (do
        let gs ← ls.mapM LeafDesc.build
        let p ← mkParamProbabilistic (ps.map some) gs
        pure (Sum.inr (p, k))) = .ok g from hg)
      obtain ⟨u, hu, hb⟩ := bind_ok hb
      cases hb; simp
  unfold Circuit.hasClassical
  rw [Bool.or_eq_true]
  have hcond : (ls.map (·.cond)).any Option.isSome = true ↔ ∃ l ∈ ls, l.cond ≠ none := by
    rw [List.any_eq_true]
    constructor
    · rintro ⟨c, hc, h⟩
      obtain ⟨l, hl, rfl⟩ := List.mem_map.1 hc
      exact ⟨l, hl, by rw [← Option.isSome_iff_ne_none]; exact h⟩
    · rintro ⟨l, hl, h⟩
      exact ⟨_, List.mem_map.2 ⟨l, hl, rfl⟩, by rw [Option.isSome_iff_ne_none]; exact h⟩
  refine (or_congr hcond hmeas).trans ?_
  constructor
  · rintro (⟨l, hl, h⟩ | ⟨l, hl, h⟩)
    · exact ⟨l, hl, .inl h⟩
    · exact ⟨l, hl, .inr h⟩
  · rintro ⟨l, hl, h | h⟩
    · exact .inl ⟨l, hl, h⟩
    · exact .inr ⟨l, hl, h⟩

theorem circuit_update {R : Rng} {L n : Nat} {C : Circuit} {a a' : RegArg} {bits : List Bool} (ha : Bits a bits)
    (hc : a = .absent → C.hasClassical = false) {d : DictArg} {kw : List (String × KwValue)} {θ : String → Option ℝ}
    (hθ : singleParams d kw = .ok θ) {seed : Option Nat} {ψ ψ' : U64 → ℂ} {f : Option Fault} :
    C.Update R L n ψ a d kw seed ψ' a' f ↔ ∃ c', C.RunsOn L n (R.seeded seed) θ ψ bits c' f ∧ ψ' = c'.psi ∧ Stored a c'.reg a' := by
  unfold Circuit.Update
  rw [hθ]
  dsimp only
  rw [seeded_getD]
  cases ha with
  | absent =>
    unfold Circuit.RunsPlain
    rw [hc rfl]
    dsimp only
    rw [if_neg (by simp)]
    constructor
    · rintro ⟨rfl, c', h, rfl⟩
      exact ⟨c', h, rfl, .absent _⟩
    · rintro ⟨c', h, rfl, hs⟩
      cases hs
      exact ⟨rfl, c', h, rfl⟩
  | single =>
    constructor
    · rintro ⟨c', h, rfl, rfl⟩
      exact ⟨c', h, rfl, .single _ _⟩
    · rintro ⟨c', h, rfl, hs⟩
      cases hs
      exact ⟨c', h, rfl, rfl⟩

/-- **C90.** A circuit called on a state performs its lines with the parameters given as dictionary or as keywords. -/
theorem C90_circuit {ls : List Line} {C : Circuit} {L n : Nat} (h : CircuitOf ls C n) (hL : LanesOK L) (hn : n < 64) {a : RegArg}
    {bits : List Bool} (ha : Bits a bits) (hc : a = .absent → ∀ l ∈ ls, ¬ l.UsesBits) {d : DictArg} {kw : List (String × KwValue)}
    (hp : NumbersOK d kw) {θ : String → Option ℝ} (hθ : ∀ k t, θ k = some t ↔ NumberGiven d kw k t) (hk : KeysGiven ls θ) {R : Rng}
    {seed : Option Nat} {ψ ψ' : U64 → ℂ} {bits' : List Bool} {ms : List Nat} {uss : List (List ℝ)}
    (hh : History n θ ls ⟨ψ, bits, []⟩ uss ⟨ψ', bits', ms⟩) (hs : Seeded R seed uss.flatten) :
    ∃ a', Stored a bits' a' ∧ Ends (C.Update R L n ψ a d kw seed) ψ' a' := by
  obtain ⟨m, hm, hiff⟩ := singleParams_ok hp
  obtain rfl : m = θ := by
    funext k
    apply Option.ext
    intro t
    rw [hiff, hθ]
  have hcl : a = .absent → C.hasClassical = false := fun e => by
    rw [← Bool.not_eq_true, built_usesBits h.built]
    rintro ⟨l, hl, hu⟩
    exact hc e l hl hu
  exact ends_of ha (call := C.Update R L n ψ a d kw seed) (run := fun c' f => C.RunsOn L n (R.seeded seed) m ψ bits c' f)
    (fun ψ1 a1 f => circuit_update ha hcl hm)
    (C38_in_order h hL hn hk hh (rnd := R.seeded seed) fun i hi => seeded_draws hs i hi)

/-! ## batches -/

/-- **C90 (batches).** A gate called on a batch does with every slot what the instruction does with one state; slot after slot takes
its random numbers.  Missing: random choices among sparse or large dense matrices (`C36_batched_counterexample`). -/
theorem C90_gate_batched_partial {ins : Instr} {g : Gate} (hb : ins.build = .ok (.inl g)) (hok : ins.OK) {L B n : Nat}
    (hf : Fits L B n) (hB : 0 < B) (hq : ∀ q ∈ ins.qubits, q < n) (hv : ins.SmallMatrices ∨ ins.Definite) {a : RegArg} {sz : Nat}
    {rows : List (List Bool)} (ha : Rows B a sz rows) {R : Rng} {seed : Option Nat} {Ψ : U64 → ℂ} {ψ' : Nat → U64 → ℂ}
    {rows' : Nat → List Bool} {ms : Nat → List Nat} {us : Nat → List ℝ} {θ : String → Option ℝ}
    (he : ∀ b (hb : b < rows.length), Line.Effect n θ ⟨ins, none⟩ ⟨slotOf n b Ψ, rows[b], []⟩ (us b) ⟨ψ' b, rows' b, ms b⟩)
    (hs : Seeded R seed ((List.range B).flatMap us)) : BatchEnds (g.UpdateBatch R L B n Ψ a seed) B n Ψ a ψ' rows' := by
  obtain ⟨hl, hz⟩ := rows_length ha
  have hkey : ins.key? = none := by
    cases ins with
    | gate => rfl
    | choice => rfl
    | measure => rfl
    | rot r k =>
      obtain ⟨p, hp, h⟩ := bind_ok (show (do let p ← r.build; pure (Sum.inr (PGate.rot p, k))) = .ok (Sum.inl g) from hb)
      cases h
    | pchoice ps ls k =>
      obtain ⟨gs, hgs, h⟩ := bind_ok (show (do
        let gs ← ls.mapM LeafDesc.build
        let p ← mkParamProbabilistic (ps.map some) gs
        pure (Sum.inr (p, k))) = .ok (Sum.inl g) from hb)
      obtain ⟨p, hp, h⟩ := bind_ok h
      cases h
  have he' : ∀ b, b < B → Line.Effect n (slotParams (fun _ => none) b) ⟨ins, none⟩ (startAt n Ψ rows b) (us b)
      ⟨ψ' b, rows' b, ms b⟩ := fun b hbB => by
    have hb' : b < rows.length := by omega
    have := he b hb'
    simp only [startAt, dif_pos hb']
    generalize hs1 : (⟨slotOf n b Ψ, rows[b], []⟩ : Situation) = s1 at this
    generalize (⟨ψ' b, rows' b, ms b⟩ : Situation) = s2 at this
    generalize us b = u at this
    cases this with
    | skip _ _ h => exact .skip _ _ h
    | gate d c _ h1 h2 => exact .gate d _ _ h1 h2
    | choice ps ds c _ u k hk' h1 h2 h3 => exact .choice ps ds _ _ u k hk' h1 h2 h3
    | measure q cbit reset c _ u b h1 h2 h3 h4 h5 h6 => exact .measure q cbit reset _ _ u b h1 h2 h3 h4 h5 h6
    | rot => cases hkey
    | pchoice => cases hkey
  have hrun := plain_line (l := ⟨ins, none⟩) hb hok hf.lanes hf.qubits hf.size hB hq hv rfl (params := fun _ => none)
    (fun k v hk _ => by rw [hkey] at hk; cases hk) he' (rnd := R.seeded seed) (pos := 0)
    (fun i hi => by rw [Nat.zero_add]; exact seeded_draws hs i hi) (holds_start ha Ψ)
  have hnext := holds_next hf.size (holds_start (n := n) ha Ψ) he'
  refine batchEnds_of ha (call := g.UpdateBatch R L B n Ψ a seed)
    (run := fun c' f => g.RunsBatched L B n (R.seeded seed) ⟨Ψ, ⟨sz, rows⟩, 0⟩ c' f) (fun ψ1 a1 f => gate_updateBatch ha)
    (c := ⟨ofSlots B n (fun b => ψ' b) Ψ, ⟨sz, (List.range B).map fun b => rows' b⟩, 0 + ((List.range B).flatMap us).length⟩) (fun c' f => ⟨fun h => ?_, ?_⟩) (fun b hbB => ⟨hnext.psi b hbB, ?_⟩) ?_ rfl
    hnext.rest
  · exact Proofs.Gate.runsBatched_unique h hrun
  · rintro ⟨rfl, rfl⟩
    exact hrun
  · simp [hbB]
  · simp

/-- **C90 (batches).** The same for a parametric gate and one parameter per slot.  Missing: as for gates; and calls with a wrong number
of parameters, which are refused if a register or a seed is given (`C90_refused_sizes`) but not otherwise (`C90_counterexample`). -/
theorem C90_param_batched_partial {ins : Instr} {p : PGate} {key : String} (hb : ins.build = .ok (.inr (p, key))) (hok : ins.OK)
    {L B n : Nat} (hf : Fits L B n) (hB : 0 < B) (hq : ∀ q ∈ ins.qubits, q < n) (hv : ins.SmallMatrices ∨ ins.Definite) {a : RegArg}
    {sz : Nat} {rows : List (List Bool)} (ha : Rows B a sz rows) {ts : List ℝ} (ht : ts.length = B) {R : Rng} {seed : Option Nat}
    {Ψ : U64 → ℂ} {ψ' : Nat → U64 → ℂ} {rows' : Nat → List Bool} {ms : Nat → List Nat} {us : Nat → List ℝ}
    (he : ∀ b (hb : b < rows.length), Line.Effect n (fun _ => ts[b]?) ⟨ins, none⟩ ⟨slotOf n b Ψ, rows[b], []⟩ (us b)
      ⟨ψ' b, rows' b, ms b⟩)
    (hs : Seeded R seed ((List.range B).flatMap us)) :
    BatchEnds (p.UpdateBatch R L B n (.sequence ts) Ψ a seed) B n Ψ a ψ' rows' := by
  obtain ⟨hl, hz⟩ := rows_length ha
  have he' : ∀ b, b < B → Line.Effect n (slotParams (fun _ => some ts) b) ⟨ins, none⟩ (startAt n Ψ rows b) (us b)
      ⟨ψ' b, rows' b, ms b⟩ := fun b hbB => by
    have hb' : b < rows.length := by omega
    have := he b hb'
    simp only [startAt, dif_pos hb']
    exact this
  obtain ⟨v, hv', hrun⟩ := plain_line (l := ⟨ins, none⟩) hb hok hf.lanes hf.qubits hf.size hB hq hv rfl (params := fun _ => some ts)
    (fun k v hk h => by cases h; exact ht) he' (rnd := R.seeded seed) (pos := 0)
    (fun i hi => by rw [Nat.zero_add]; exact seeded_draws hs i hi) (holds_start ha Ψ)
  cases hv'
  have hnext := holds_next hf.size (holds_start (n := n) ha Ψ) he'
  refine batchEnds_of ha (call := p.UpdateBatch R L B n (.sequence ts) Ψ a seed)
    (run := fun c' f => p.RunsBatched L B n (R.seeded seed) ts ⟨Ψ, ⟨sz, rows⟩, 0⟩ c' f) (fun ψ1 a1 f => param_updateBatch ht ha)
    (c := ⟨ofSlots B n (fun b => ψ' b) Ψ, ⟨sz, (List.range B).map fun b => rows' b⟩, 0 + ((List.range B).flatMap us).length⟩) (fun c' f => ⟨fun h => ?_, ?_⟩) (fun b hbB => ⟨hnext.psi b hbB, ?_⟩) ?_
    rfl hnext.rest
  · exact Proofs.PGate.runsBatched_unique h hrun
  · rintro ⟨rfl, rfl⟩
    exact hrun
  · simp [hbB]
  · simp

theorem circuit_updateBatch {R : Rng} {L B n : Nat} {C : Circuit} {a a' : RegArg} {sz : Nat} {rows : List (List Bool)}
    (ha : Rows B a sz rows) (hc : a = .absent → C.hasClassical = false) {d : DictArg} {kw : List (String × KwValue)}
    {θ : String → Option (List ℝ)} (hθ : batchParams d kw = .ok θ) {seed : Option Nat} {Ψ Ψ' : U64 → ℂ} {f : Option Fault} :
    C.UpdateBatch R L B n Ψ a d kw seed Ψ' a' f ↔
      ∃ c', C.RunsBatched L B n (R.seeded seed) θ Ψ ⟨sz, rows⟩ c' f ∧ Ψ' = c'.psi ∧ a' = batchReg a c'.reg := by
  unfold Circuit.UpdateBatch
  rw [hθ]
  dsimp only
  rw [seeded_getD]
  cases ha with
  | absent _ hl hz =>
    unfold Circuit.RunsBatchedPlain
    rw [hc rfl, zeros_rows hl hz]
    dsimp only
    rw [if_neg (by simp)]
    constructor
    · rintro ⟨rfl, c', h, rfl⟩
      exact ⟨c', h, rfl, rfl⟩
    · rintro ⟨c', h, rfl, hs⟩
      exact ⟨hs, c', h, rfl⟩
  | batched => exact Iff.rfl

/-- **C90 (batches).** A circuit called on a batch performs its lines on every slot with that slot's parameters, given as dictionary or
as keywords.  Missing: as in `C44_batched_partial`. -/
theorem C90_circuit_batched_partial {ls : List Line} {C : Circuit} {L B n : Nat} (h : CircuitOf ls C n) (hf : Fits L B n) (hB : 0 < B)
    (hv : ∀ l ∈ ls, l.InPlace) {a : RegArg} {sz : Nat} {rows : List (List Bool)} (ha : Rows B a sz rows)
    (hc : a = .absent → ∀ l ∈ ls, ¬ l.UsesBits) {d : DictArg} {kw : List (String × KwValue)} (hp : SequencesOK d kw)
    {θ : String → Option (List ℝ)} (hθ : ∀ k t, θ k = some t ↔ SequenceGiven d kw k t)
    (hk : ∀ l ∈ ls, ∀ k, l.instr.key? = some k → ∃ v, θ k = some v ∧ v.length = B) {R : Rng} {seed : Option Nat} {Ψ : U64 → ℂ}
    {ψ' : Nat → U64 → ℂ} {rows' : Nat → List Bool} {ms : Nat → List Nat} {uss : List (Nat → List ℝ)} (hlu : uss.length = ls.length)
    (hh : ∀ b (hb : b < rows.length), History n (fun k => (θ k).bind (·[b]?)) ls ⟨slotOf n b Ψ, rows[b], []⟩ (uss.map (· b))
      ⟨ψ' b, rows' b, ms b⟩)
    (hs : Seeded R seed (uss.flatMap fun us => (List.range B).flatMap us)) :
    BatchEnds (C.UpdateBatch R L B n Ψ a d kw seed) B n Ψ a ψ' rows' := by
  obtain ⟨m, hm, hiff⟩ := batchParams_ok hp
  obtain rfl : m = θ := by
    funext k
    apply Option.ext
    intro t
    rw [hiff, hθ]
  have hcl : a = .absent → C.hasClassical = false := fun e => by
    rw [← Bool.not_eq_true, built_usesBits h.built]
    rintro ⟨l, hl, hu⟩
    exact hc e l hl hu
  obtain ⟨hl, hz⟩ := rows_length ha
  obtain ⟨c, hrun, h1, h2, h3, h4, -⟩ := C44_batched_partial h hf hB hv hk hl hz hlu hh (rnd := R.seeded seed)
    fun i hi => seeded_draws hs i hi
  exact batchEnds_of ha (call := C.UpdateBatch R L B n Ψ a d kw seed)
    (run := fun c' f => C.RunsBatched L B n (R.seeded seed) m Ψ ⟨sz, rows⟩ c' f) (fun ψ1 a1 f => circuit_updateBatch ha hcl hm) hrun h1 h2 h3 h4

/-! ## refusals -/

theorem refused_iff {call : Outcomes} {ψ : U64 → ℂ} {a : RegArg} {e : String}
    (h : ∀ ψ' a' f, call ψ' a' f ↔ ψ' = ψ ∧ a' = a ∧ f = some (.throw e)) : Refused call ψ a := ⟨e, h⟩

/-- **C90.** A batched register with one state, a single register with a batch, a sequence (or nothing) as parameter of one state, a
number (or nothing) as parameter of a batch: exception, and neither state nor register change. -/
theorem C90_refused_kinds (R : Rng) (L B n : Nat) (seed : Option Nat) (ψ : U64 → ℂ) (a : RegArg) (r : List Bool) (br : BReg) :
    (∀ g : Gate, Refused (g.Update R L n ψ (.batched br) seed) ψ (.batched br) ∧
      Refused (g.UpdateBatch R L B n ψ (.single r) seed) ψ (.single r)) ∧
    (∀ (p : PGate) (v : ParamArg), Refused (p.Update R L n v ψ (.batched br) seed) ψ (.batched br) ∧
      Refused (p.UpdateBatch R L B n v ψ (.single r) seed) ψ (.single r)) ∧
    (∀ (p : PGate) (t : ℝ) (ts : List ℝ), Refused (p.Update R L n (.sequence ts) ψ a seed) ψ a ∧
      Refused (p.Update R L n .absent ψ a seed) ψ a ∧ Refused (p.UpdateBatch R L B n (.number t) ψ a seed) ψ a ∧
      Refused (p.UpdateBatch R L B n .absent ψ a seed) ψ a) ∧
    (∀ (C : Circuit) (d : DictArg) (kw : List (String × KwValue)), (NumbersOK d kw → Refused (C.Update R L n ψ (.batched br) d kw seed) ψ (.batched br)) ∧
      (SequencesOK d kw → Refused (C.UpdateBatch R L B n ψ (.single r) d kw seed) ψ (.single r))) := by
  refine ⟨fun g => ⟨⟨_, fun _ _ _ => Iff.rfl⟩, ⟨_, fun _ _ _ => Iff.rfl⟩⟩, fun p v => ⟨?_, ?_⟩,
    fun p t ts => ⟨⟨_, fun _ _ _ => Iff.rfl⟩, ⟨_, fun _ _ _ => Iff.rfl⟩, ⟨_, fun _ _ _ => Iff.rfl⟩, ⟨_, fun _ _ _ => Iff.rfl⟩⟩,
    fun C d kw => ⟨fun h => ?_, fun h => ?_⟩⟩
  · cases v <;> exact ⟨_, fun _ _ _ => Iff.rfl⟩
  · cases v <;> exact ⟨_, fun _ _ _ => Iff.rfl⟩
  · obtain ⟨m, hm, -⟩ := singleParams_ok h
    unfold Circuit.Update
    rw [hm]
    exact ⟨_, fun _ _ _ => Iff.rfl⟩
  · obtain ⟨m, hm, -⟩ := batchParams_ok h
    unfold Circuit.UpdateBatch
    rw [hm]
    exact ⟨_, fun _ _ _ => Iff.rfl⟩

theorem asNumber_error (v : KwValue) (e : Fault) (h : KwValue.asNumber v = .error e) : ∃ msg, e = .throw msg := by
  cases v with
  | number t => first | (exact ⟨_, (Except.error.inj h).symm⟩) | (unfold KwValue.asNumber at h; cases h)
  | sequence ts => first | (exact ⟨_, (Except.error.inj h).symm⟩) | (unfold KwValue.asNumber at h; cases h)
  | other => exact ⟨_, (Except.error.inj h).symm⟩

theorem asNumber_other (v : KwValue) (h : ∀ t, v ≠ KwValue.number t) (t : ℝ) : KwValue.asNumber v ≠ .ok t := by
  cases v with
  | number t => exact absurd rfl (h t)
  | sequence ts => exact fun e => nomatch (show (Except.error _ : Res _) = _ from e)
  | other => exact fun e => nomatch (show (Except.error _ : Res _) = _ from e)

theorem asSequence_error (v : KwValue) (e : Fault) (h : KwValue.asSequence v = .error e) : ∃ msg, e = .throw msg := by
  cases v with
  | number t => first | (exact ⟨_, (Except.error.inj h).symm⟩) | (unfold KwValue.asSequence at h; cases h)
  | sequence ts => first | (exact ⟨_, (Except.error.inj h).symm⟩) | (unfold KwValue.asSequence at h; cases h)
  | other => exact ⟨_, (Except.error.inj h).symm⟩

theorem asSequence_other (v : KwValue) (h : ∀ t, v ≠ KwValue.sequence t) (t : List ℝ) : KwValue.asSequence v ≠ .ok t := by
  cases v with
  | sequence t => exact absurd rfl (h t)
  | number t => exact fun e => nomatch (show (Except.error _ : Res _) = _ from e)
  | other => exact fun e => nomatch (show (Except.error _ : Res _) = _ from e)

theorem kwLoop_bad {α : Type} {given : Bool} {cast : KwValue → Res α} (hc : ∀ v e, cast v = .error e → ∃ msg, e = .throw msg)
    (kw : List (String × KwValue)) (m : String → Option α)
    (h : (given = true ∧ kw ≠ []) ∨ (∃ k v, (k, v) ∈ kw ∧ ∀ t, cast v ≠ .ok t)) :
    ∃ msg, kwLoop given cast kw m = .error (.throw msg) := by
  induction kw generalizing m with
  | nil => rcases h with ⟨-, h⟩ | ⟨k, v, h, -⟩ <;> simp at h
  | cons p kw ih =>
    obtain ⟨k0, v0⟩ := p
    cases given with
    | true => exact ⟨_, kwLoop_given _⟩
    | false =>
      rw [kwLoop, if_neg (by simp)]
      cases hv : cast v0 with
      | error e => obtain ⟨msg, rfl⟩ := hc _ _ hv; exact ⟨msg, rfl⟩
      | ok x =>
        refine ih _ (.inr ?_)
        rcases h with ⟨h, -⟩ | ⟨k, v, h, hno⟩
        · cases h
        · rcases List.mem_cons.1 h with e | h
          · cases e; exact absurd hv (hno x)
          · exact ⟨k, v, h, hno⟩

/-- **C90.** Parameters of a circuit given both as dictionary and as keywords, a non-empty dictionary of the other kind, a keyword of
the other kind: exception, and neither state nor register change, whatever the register. -/
theorem C90_refused_parameters (R : Rng) (L B n : Nat) (seed : Option Nat) (ψ : U64 → ℂ) (a : RegArg) (C : Circuit)
    (d : DictArg) (kw : List (String × KwValue)) :
    ((d ≠ .absent ∧ kw ≠ []) ∨ (∃ x xs, d = .sequences (x :: xs)) ∨ (∃ k v, (k, v) ∈ kw ∧ ∀ t, v ≠ .number t) →
      Refused (C.Update R L n ψ a d kw seed) ψ a) ∧
    ((d ≠ .absent ∧ kw ≠ []) ∨ (∃ x xs, d = .numbers (x :: xs)) ∨ (∃ k v, (k, v) ∈ kw ∧ ∀ t, v ≠ .sequence t) →
      Refused (C.UpdateBatch R L B n ψ a d kw seed) ψ a) := by
  have hn : ∀ v e, KwValue.asNumber v = .error e → ∃ msg, e = .throw msg := asNumber_error
  have hsq : ∀ v e, KwValue.asSequence v = .error e → ∃ msg, e = .throw msg := asSequence_error
  have hnum : ∀ v, (∀ t, v ≠ KwValue.number t) → ∀ t, KwValue.asNumber v ≠ .ok t := asNumber_other
  have hseq : ∀ v, (∀ t, v ≠ KwValue.sequence t) → ∀ t, KwValue.asSequence v ≠ .ok t := asSequence_other
  constructor
  · intro h
    have : ∃ msg, singleParams d kw = .error (.throw msg) := by
      unfold singleParams
      have hbad : (d ≠ .absent ∧ kw ≠ []) ∨ (∃ k v, (k, v) ∈ kw ∧ ∀ t, v ≠ .number t) →
          ∀ m, ∃ msg, kwLoop d.isGiven KwValue.asNumber kw m = .error (.throw msg) := fun h m => kwLoop_bad hn _ _ (by
        rcases h with ⟨h1, h2⟩ | ⟨k, v, hm, hv⟩
        · exact .inl ⟨by cases d <;> simp_all [DictArg.isGiven], h2⟩
        · exact .inr ⟨k, v, hm, hnum v hv⟩)
      cases d with
      | absent => exact hbad (h.imp_right fun h => h.resolve_left (by rintro ⟨x, xs, h⟩; cases h)) _
      | numbers d => exact hbad (h.imp_right fun h => h.resolve_left (by rintro ⟨x, xs, h⟩; cases h)) _
      | sequences d =>
        cases d with
        | nil => exact hbad (h.imp_right fun h => h.resolve_left (by rintro ⟨x, xs, h⟩; cases h)) _
        | cons x xs => exact ⟨_, rfl⟩
    obtain ⟨msg, he⟩ := this
    unfold Circuit.Update
    rw [he]
    exact ⟨_, fun _ _ _ => Iff.rfl⟩
  · intro h
    have : ∃ msg, batchParams d kw = .error (.throw msg) := by
      unfold batchParams
      have hbad : (d ≠ .absent ∧ kw ≠ []) ∨ (∃ k v, (k, v) ∈ kw ∧ ∀ t, v ≠ .sequence t) →
          ∀ m, ∃ msg, kwLoop d.isGiven KwValue.asSequence kw m = .error (.throw msg) := fun h m => kwLoop_bad hsq _ _ (by
        rcases h with ⟨h1, h2⟩ | ⟨k, v, hm, hv⟩
        · exact .inl ⟨by cases d <;> simp_all [DictArg.isGiven], h2⟩
        · exact .inr ⟨k, v, hm, hseq v hv⟩)
      cases d with
      | absent => exact hbad (h.imp_right fun h => h.resolve_left (by rintro ⟨x, xs, h⟩; cases h)) _
      | sequences d => exact hbad (h.imp_right fun h => h.resolve_left (by rintro ⟨x, xs, h⟩; cases h)) _
      | numbers d =>
        cases d with
        | nil => exact hbad (h.imp_right fun h => h.resolve_left (by rintro ⟨x, xs, h⟩; cases h)) _
        | cons x xs => exact ⟨_, rfl⟩
    obtain ⟨msg, he⟩ := this
    unfold Circuit.UpdateBatch
    rw [he]
    exact ⟨_, fun _ _ _ => Iff.rfl⟩

theorem refused_stored {r : BReg} {Ψ : U64 → ℂ} {call : (U64 → ℂ) → BReg → Option Fault → Prop} {e : String}
    (h : ∀ Ψ' reg' f, call Ψ' reg' f ↔ Ψ' = Ψ ∧ reg' = r ∧ f = some (.throw e)) :
    Refused (fun Ψ' a' f => ∃ reg', call Ψ' reg' f ∧ a' = .batched reg') Ψ (.batched r) := by
  refine ⟨e, fun Ψ' a' f => ?_⟩
  constructor
  · rintro ⟨reg', hc, rfl⟩
    obtain ⟨rfl, rfl, rfl⟩ := (h _ _ _).1 hc
    exact ⟨rfl, rfl, rfl⟩
  · rintro ⟨rfl, rfl, rfl⟩
    exact ⟨_, (h _ _ _).2 ⟨rfl, rfl, rfl⟩, rfl⟩

/-- **C90.** Sizes that do not match: a batched register with another number of rows, or (with a register or a seed) another number of
parameters than the batch has states.  Exception, and neither states nor register change. -/
theorem C90_refused_sizes (R : Rng) (L B n : Nat) (seed : Option Nat) (Ψ : U64 → ℂ) (r : BReg) :
    (r.regs.length ≠ B → (∀ g : Gate, Refused (g.UpdateBatch R L B n Ψ (.batched r) seed) Ψ (.batched r)) ∧
      ∀ (p : PGate) (ts : List ℝ), Refused (p.UpdateBatch R L B n (.sequence ts) Ψ (.batched r) seed) Ψ (.batched r)) ∧
    ∀ (p : PGate) (ts : List ℝ), ts.length ≠ B →
      Refused (p.UpdateBatch R L B n (.sequence ts) Ψ (.batched r) seed) Ψ (.batched r) ∧
      ∀ s, Refused (p.UpdateBatch R L B n (.sequence ts) Ψ .absent (some s)) Ψ .absent := by
  refine ⟨fun hr => ⟨fun g => ?_, fun p ts => ?_⟩, fun p ts ht => ⟨?_, fun s => ?_⟩⟩
  · refine refused_stored (e := "GateBase::update_quantum_state: batch size mismatch.") (call := g.CallBatchReg R L B n (some (seed.getD R.entropy)) Ψ r) fun Ψ' reg' f => ?_
    unfold Gate.CallBatchReg
    rw [if_pos hr]
  · refine refused_stored (e := "ParamGateBase::update_quantum_state: batch size mismatch.") (call := p.CallBatchReg R L B n ts (some (seed.getD R.entropy)) Ψ r) fun Ψ' reg' f => ?_
    unfold PGate.CallBatchReg
    rw [if_pos hr]
  · by_cases hr : r.regs.length ≠ B
    · refine refused_stored (e := "ParamGateBase::update_quantum_state: batch size mismatch.") (call := p.CallBatchReg R L B n ts (some (seed.getD R.entropy)) Ψ r) fun Ψ' reg' f => ?_
      unfold PGate.CallBatchReg
      rw [if_pos hr]
    · refine refused_stored (e := "ParamGateBase::update_quantum_state: parameter size mismatch.")
        (call := p.CallBatchReg R L B n ts (some (seed.getD R.entropy)) Ψ r) fun Ψ' reg' f => ?_
      unfold PGate.CallBatchReg
      rw [if_neg hr, if_pos ht]
  · refine ⟨"ParamGateBase::update_quantum_state: parameter size mismatch.", fun Ψ' a' f => ?_⟩
    have hz : (BReg.zeros 0 B).regs.length = B := by simp [BReg.zeros]
    unfold PGate.UpdateBatch PGate.CallBatchReg
    simp only [hz, ne_eq, not_true_eq_false, if_false, if_pos ht, not_false_eq_true, ht, if_true]
    constructor
    · rintro ⟨rfl, reg', rfl, -, rfl⟩
      exact ⟨rfl, rfl, rfl⟩
    · rintro ⟨rfl, rfl, rfl⟩
      exact ⟨rfl, _, rfl, rfl, rfl⟩

/-- **C90.** A measurement whose classical bit does not exist (in particular every measurement called without a register) and a
circuit with measurements or conditions called without a register are refused; nothing changes. -/
theorem C90_refused_bits {q cbit : Nat} {reset : Bool} {g : Gate} (hb : (Instr.measure q cbit reset).build = .ok (.inl g)) {L n : Nat}
    (hn : n < 64) (R : Rng) (seed : Option Nat) (ψ : U64 → ℂ) :
    (∀ a bits, Bits a bits → bits.length ≤ cbit → Refused (g.Update R L n ψ a seed) ψ a) ∧
    (∀ B a sz rows, Rows B a sz rows → sz ≤ cbit → Refused (g.UpdateBatch R L B n ψ a seed) ψ a) ∧
    ∀ ls C, buildCircuit ls = .ok C → (∃ l ∈ ls, l.UsesBits) → ∀ d kw,
      (NumbersOK d kw → Refused (C.Update R L n ψ .absent d kw seed) ψ .absent) ∧
      ∀ B, SequencesOK d kw → Refused (C.UpdateBatch R L B n ψ .absent d kw seed) ψ .absent := by
  obtain ⟨m, hm, h⟩ := bind_ok (show (do let g ← mkMeas q cbit reset; pure (Sum.inl (Gate.meas g))) = .ok (Sum.inl g) from hb)
  cases h
  refine ⟨fun a bits ha hl => ?_, fun B a sz rows ha hl => ?_, fun ls C hC hu d kw => ⟨fun hp => ?_, fun B hp => ?_⟩⟩
  · obtain ⟨e, he⟩ := C35_rejected hm (by omega) (R.seeded seed) ⟨ψ, bits, 0⟩ (L := L) (n := n) (.inr hl)
    exact refused_of ha (call := (Gate.meas m).Update R L n ψ a seed)
      (run := fun c' f => (Gate.meas m).RunsOn L n (R.seeded seed) ⟨ψ, bits, 0⟩ c' f) (fun _ _ _ => gate_update ha) he
  · obtain ⟨e, he⟩ := C35_batched_rejected hm (by omega) (R.seeded seed) ⟨ψ, ⟨sz, rows⟩, 0⟩ (L := L) (B := B) (n := n) (.inr (.inr hl))
    exact refusedB_of ha (call := (Gate.meas m).UpdateBatch R L B n ψ a seed)
      (run := fun c' f => (Gate.meas m).RunsBatched L B n (R.seeded seed) ⟨ψ, ⟨sz, rows⟩, 0⟩ c' f) (fun _ _ _ => gate_updateBatch ha) he
  · obtain ⟨m, hm, -⟩ := singleParams_ok hp
    refine ⟨"a classical register is required when the circuit contains measurement or classically controlled instructions.",
      fun ψ' a' f => ?_⟩
    unfold Circuit.Update Circuit.RunsPlain
    rw [hm]
    dsimp only
    rw [if_pos ((built_usesBits hC).2 hu)]
    tauto
  · obtain ⟨m, hm, -⟩ := batchParams_ok hp
    refine ⟨"a classical register is required when the circuit contains measurement or classically controlled instructions.",
      fun ψ' a' f => ?_⟩
    unfold Circuit.UpdateBatch Circuit.RunsBatchedPlain
    rw [hm]
    dsimp only
    rw [if_pos ((built_usesBits hC).2 hu)]
    tauto

/-- **C90.** A call with a seed can be repeated: what it does never depends on `std::random_device`. -/
theorem C90_repeatable (E : Nat → Nat → ℝ) (e1 e2 s : Nat) (L B n : Nat) (ψ : U64 → ℂ) (a : RegArg) :
    (∀ g : Gate, g.Update ⟨E, e1⟩ L n ψ a (some s) = g.Update ⟨E, e2⟩ L n ψ a (some s) ∧
      g.UpdateBatch ⟨E, e1⟩ L B n ψ a (some s) = g.UpdateBatch ⟨E, e2⟩ L B n ψ a (some s)) ∧
    (∀ (p : PGate) (v : ParamArg), p.Update ⟨E, e1⟩ L n v ψ a (some s) = p.Update ⟨E, e2⟩ L n v ψ a (some s) ∧
      p.UpdateBatch ⟨E, e1⟩ L B n v ψ a (some s) = p.UpdateBatch ⟨E, e2⟩ L B n v ψ a (some s)) ∧
    ∀ (C : Circuit) (d : DictArg) (kw : List (String × KwValue)),
      C.Update ⟨E, e1⟩ L n ψ a d kw (some s) = C.Update ⟨E, e2⟩ L n ψ a d kw (some s) ∧
      C.UpdateBatch ⟨E, e1⟩ L B n ψ a d kw (some s) = C.UpdateBatch ⟨E, e2⟩ L B n ψ a d kw (some s) := by
  refine ⟨fun g => ⟨?_, ?_⟩, fun p v => ⟨?_, ?_⟩, fun C d kw => ⟨?_, ?_⟩⟩
  · cases a <;> rfl
  · cases a <;> rfl
  · cases v <;> cases a <;> rfl
  · cases v <;> cases a <;> rfl
  · rfl
  · rfl

/-! ## the missing check -/

/-- **C90 fails** for parametric gates on a batch called with neither register nor seed: the number of parameters is not checked.  With
too few the kernel reads behind the end of the array (undefined behaviour), with too many the call succeeds; the same calls with a
seed are refused. -/
theorem C90_counterexample {r : RotDesc} {p : PRot} (hb : r.build = .ok p) {L B n : Nat} (hf : Fits L B n) (hB : 0 < B)
    (hq : ∀ q ∈ qubitsOf (r.at 0), q < n) (R : Rng) (Ψ : U64 → ℂ) (ts : List ℝ) :
    (ts.length < B → (∀ Ψ' a' f, (PGate.rot p).UpdateBatch R L B n (.sequence ts) Ψ .absent none Ψ' a' f ↔
      Ψ' = Ψ ∧ a' = .absent ∧ f = some (.ub "params(batch_id) out of range"))) ∧
    (B < ts.length → ∀ ψ' : Nat → U64 → ℂ,
      (∀ b (hb : b < ts.length), b < B → ψ' b = onState (2 ^ n) (operatorOf (r.at ts[b])) (slotOf n b Ψ)) →
      BatchEnds ((PGate.rot p).UpdateBatch R L B n (.sequence ts) Ψ .absent none) B n Ψ .absent ψ' (fun _ => [])) ∧
    (ts.length ≠ B → ∀ s, Refused ((PGate.rot p).UpdateBatch R L B n (.sequence ts) Ψ .absent (some s)) Ψ .absent) := by
  have hn := hf.qubits
  have hck : checkWithinBounds p.operands n = .ok () := rot_bounds hb hn hq
  refine ⟨fun ht Ψ' a' f => ?_, fun ht ψ' hψ => ?_, fun ht s => ((C90_refused_sizes R L B n none Ψ ⟨0, []⟩).2 _ _ ht).2 s⟩
  · have hno : ¬ B ≤ ts.length := by omega
    unfold PGate.UpdateBatch PGate.CallBatch PGate.RunsBatched PRot.RunsBatched
    simp only [hck, dif_neg hno]
    constructor
    · rintro ⟨rfl, c', ⟨rfl, rfl⟩, rfl⟩
      exact ⟨rfl, rfl, rfl⟩
    · rintro ⟨rfl, rfl, rfl⟩
      exact ⟨rfl, _, ⟨rfl, rfl⟩, rfl⟩
  · have hl : (ts.take B).length = B := by rw [List.length_take]; omega
    have hins : (Instr.rot r "").build = .ok (.inr (PGate.rot p, "")) := by
      show (do let p ← r.build; pure (Sum.inr (PGate.rot p, "")) : Res Item) = _
      rw [hb]
      rfl
    obtain ⟨h⟩ := C90_param_batched_partial hins trivial hf hB hq (.inr trivial) (a := .absent) (sz := 0)
      (rows := List.replicate B []) (.absent _ (by simp) (fun x hx => (List.mem_replicate.1 hx).2)) hl (R := R) (seed := none) (Ψ := Ψ)
      (ψ' := ψ') (rows' := fun _ => []) (ms := fun _ => []) (us := fun _ => []) (fun b hbl => by
        have hbB : b < B := by simpa using hbl
        have hbt : b < (ts.take B).length := by omega
        rw [hψ b (by omega) hbB, List.getElem_replicate]
        refine Line.Effect.rot r "" ts[b] none ⟨slotOf n b Ψ, [], []⟩ rfl (by simp) ?_
        rw [List.getElem?_eq_getElem hbt, List.getElem_take]) (fun i hi => by simp at hi)
    refine ⟨?_⟩
    obtain ⟨Ψ', a', he, hrest⟩ := h
    refine ⟨Ψ', a', fun Ψ1 a1 f => ?_, hrest⟩
    rw [← he Ψ1 a1 f]
    unfold PGate.UpdateBatch PGate.CallBatch PGate.RunsBatched
    dsimp only
    simp only [rot_take (le_of_lt ht)]

/-! ## the hypotheses can be met -/

/-- a Hadamard gate, a measurement into bit 1 of a two-bit register, a random choice: instructions as required by `C90_gate` -/
example : (∃ g, (Instr.gate (.one .H 0 [] [])).build = .ok (.inl (.det g))) ∧ Bits .absent [] ∧ Bits (.single [true, false]) [true, false] ∧
    ∀ ψ, Line.Effect 2 (fun _ => none) ⟨.gate (.one .H 0 [] []), none⟩ ⟨ψ, [], []⟩ []
      ⟨onState (2 ^ 2) (operatorOf (.one .H 0 [] [])) ψ, [], []⟩ := by
  refine ⟨?_, .absent, .single _, fun ψ => .gate _ _ ⟨ψ, [], []⟩ rfl (by simp)⟩
  obtain ⟨g, hg⟩ := build_one .H (q := 0) (cs := []) (vs := []) (by norm_num) (by simp) (by simp) (by simp) rfl (by simp [effectiveValues])
  exact ⟨g, by show (do let g ← (GateDesc.one .H 0 [] []).build; pure (Sum.inl (Gate.det g)) : Res Item) = _; rw [hg]; rfl⟩

/-- an outcome of a measurement is an effect, so `C90_gate` applies to measurements with a register -/
example (R : Rng) {ψ : U64 → ℂ} (h0 : bitProb 1 ψ 0 false = 1) (hr : R.engine 7 0 = 0.5) :
    Line.Effect 1 (fun _ => none) ⟨.measure 0 1 false, none⟩ ⟨ψ, [true, true], []⟩ [0.5]
      ⟨onState (2 ^ 1) (afterMeasurement 1 0 false false) ψ, [true, false], [0]⟩ ∧ Seeded R (some 7) [0.5] := by
  constructor
  · have := Line.Effect.measure (n := 1) (θ := fun _ => none) 0 1 false none ⟨ψ, [true, true], []⟩ 0.5 false rfl (by simp) (by simp)
      (by rw [h0]) (by rw [h0]; norm_num) (by rw [h0]; norm_num)
    exact this
  · intro i hi
    obtain rfl : i = 0 := by simpa using hi
    exact hr

/-- one state per slot, one parameter per slot -/
example (Ψ : U64 → ℂ) : (∃ p, (Instr.rot (.axis .X 0 2 [] []) "a").build = .ok (.inr (p, "a"))) ∧
    Rows 2 .absent 0 [[], []] ∧ Rows 2 (.batched ⟨1, [[true], [false]]⟩) 1 [[true], [false]] ∧
    ∀ b (hb : b < [([] : List Bool), []].length), Line.Effect 1 (fun _ => [0.1, (0.2 : ℝ)][b]?) ⟨.rot (.axis .X 0 2 [] []) "a", none⟩
      ⟨slotOf 1 b Ψ, [[], []][b], []⟩ [] ⟨onState (2 ^ 1) (operatorOf (.one (.RX (2 * [0.1, (0.2 : ℝ)][b])) 0 [] [])) (slotOf 1 b Ψ),
        [[], []][b], []⟩ := by
  refine ⟨?_, .absent _ rfl (by simp), .batched _ _ rfl (by simp), fun b hb => ?_⟩
  · obtain ⟨o, ho⟩ := mkOperands_complete (ts := [0]) (cs := []) (vs := []) (by simp) (by simp) (by simp) (by simp) (by simp) rfl
      (by simp [effectiveValues])
    exact ⟨_, by
      show (do let p ← (RotDesc.axis .X 0 2 [] []).build; pure (Sum.inr (PGate.rot p, "a")) : Res Item) = _
      simp only [RotDesc.build, mkAxis, ho, ok_bind]
      rfl⟩
  · exact Line.Effect.rot (n := 1) (.axis .X 0 2 [] []) "a" _ none ⟨slotOf 1 b Ψ, _, []⟩ rfl (by simp)
      (List.getElem?_eq_getElem (l := [0.1, (0.2 : ℝ)]) hb)

/-- parameters as dictionary, as keywords, and none -/
example : NumbersOK (.numbers [("a", 0.1), ("b", 0.2)]) [] ∧ NumbersOK .absent [("a", .number 0.1), ("b", .number 0.2)] ∧
    NumbersOK .absent [] ∧ SequencesOK (.sequences [("a", [0.1, 0.2])]) [] ∧ NumberGiven .absent [("a", .number 0.1), ("b", .number 0.2)] "b" 0.2 ∧
    (Line.UsesBits ⟨.measure 0 0 true, none⟩) ∧ ¬ Line.UsesBits ⟨.gate (.one .H 0 [] []), none⟩ := by
  refine ⟨.dict _ (by simp), .keyword _ (by simp) (fun k v h => ?_), .keyword _ (by simp) (fun k v h => by simp at h), .dict _ (by simp),
    .keyword _ _ _ (by simp), .inr ⟨0, 0, true, rfl⟩, ?_⟩
  · simp only [List.mem_cons, Prod.mk.injEq, List.not_mem_nil, or_false] at h
    rcases h with ⟨-, rfl⟩ | ⟨-, rfl⟩ <;> exact ⟨_, rfl⟩
  · rintro (h | ⟨q, c, r, h⟩)
    · exact h rfl
    · cases h

/-- parameters refused by `C90_refused_parameters` -/
example : (DictArg.numbers [] ≠ .absent ∧ [("a", KwValue.number 0.1)] ≠ []) ∧ (∃ x xs, DictArg.sequences [("a", [0.1])] = .sequences (x :: xs)) ∧
    (∃ k v, (k, v) ∈ [("a", KwValue.sequence [])] ∧ ∀ t, v ≠ .number t) :=
  ⟨⟨by simp, by simp⟩, ⟨_, _, rfl⟩, ⟨"a", _, List.mem_cons_self .., by simp⟩⟩

/-- a batch of two with one parameter: the situation of `C90_counterexample` -/
example : ∃ p, (RotDesc.axis .X 0 2 [] []).build = .ok p ∧ Fits 0 2 1 ∧ (∀ q ∈ qubitsOf ((RotDesc.axis .X 0 2 [] []).at 0), q < 1) ∧
    [(0.1 : ℝ)].length < 2 := by
  obtain ⟨o, ho⟩ := mkOperands_complete (ts := [0]) (cs := []) (vs := []) (by simp) (by simp) (by simp) (by simp) (by simp) rfl
    (by simp [effectiveValues])
  refine ⟨_, by simp only [RotDesc.build, mkAxis, ho, ok_bind]; rfl, ⟨.inl rfl, by norm_num, by norm_num⟩,
    by simp [qubitsOf, targetsOf, controlsOf, ctrlList, RotDesc.at], by simp⟩

end Verif.Props
