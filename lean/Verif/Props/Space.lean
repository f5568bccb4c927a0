import Verif.Proofs.Space
import Verif.Props.Gates

/-! # C83: gates and circuits meet states of their own execution space only -/

namespace Verif.Props
open Verif Verif.Spec Verif.Model Verif.Proofs
attribute [-simp] BitVec.getLsbD_eq_getElem

/-- the fixed gates without randomness in an entry: the gate itself or the alternatives of a random choice -/
def gatesIn : SItem → List SUGate
  | .inl (.det g) => [g]
  | .inl (.prob t) => t.gates
  | .inl (.meas _) => []
  | .inr (.rot _, _) => []
  | .inr (.prob t, _) => t.gates.filterMap fun
    | .fixed g => some g
    | .rot _ => none

/-- a gate given by a matrix -/
def MatrixGate (g : SUGate) : Prop := (∃ d, g.gate = .dense d) ∨ ∃ d, g.gate = .sparse d

/-- all matrix gates of these entries were made for space `s` -/
def MadeFor (s : Space) (l : List SItem) : Prop := ∀ e ∈ l, ∀ g ∈ gatesIn e, MatrixGate g → g.space = s

theorem matrixGate_iff (g : SUGate) : MatrixGate g ↔ g.gate.hasSpace = true := by
  unfold MatrixGate
  rcases g with ⟨g, s⟩
  cases g <;> simp [UGate.hasSpace]

theorem madeFor_iff (s : Space) (l : List SItem) : MadeFor s l ↔ ∀ e ∈ l, IHome s e := by
  unfold MadeFor
  refine forall₂_congr fun e _ => ?_
  simp only [matrixGate_iff]
  rcases e with (g | t | m) | ⟨r | t, k⟩
  · simp [gatesIn, IHome, GHome, UHome]
  · exact Iff.rfl
  · simp [gatesIn, IHome, GHome]
  · simp [gatesIn, IHome, PHome]
  · simp only [gatesIn, IHome, PHome, List.mem_filterMap]
    constructor
    · intro h x hx
      cases x with
      | fixed g => exact h g ⟨_, hx, rfl⟩
      | rot r => trivial
    · rintro h g ⟨x, hx, e⟩
      cases x with
      | fixed u => cases e; exact h _ hx
      | rot r => cases e

/-- **C83.** On states of the space for which all its matrix gates were made, a circuit does what the circuit does when there is only one space. -/
theorem C83_own_space {s : Space} {C : SCircuit} (h : MadeFor s C.gates) (L n : Nat) (rnd : Nat → ℝ) (θ : String → Option ℝ)
    (ψ : U64 → ℂ) (reg : List Bool) (c' : Context) (f : Option Fault) :
    C.RunsOn s L n rnd θ ψ reg c' f ↔ C.plain.RunsOn L n rnd θ ψ reg c' f := by
  rw [madeFor_iff] at h
  unfold SCircuit.RunsOn Circuit.RunsOn
  rw [show C.plain.gates.length = C.gates.length by simp [SCircuit.plain]]
  cases C.plain.check n θ with
  | error e => exact Iff.rfl
  | ok _ => exact exists_congr fun m => seqRun_same fun i => step_home fun g hg => h g (List.mem_of_getElem? hg)

/-- **C83.** The same for batches. -/
theorem C83_own_space_batched {s : Space} {C : SCircuit} (h : MadeFor s C.gates) (L B n : Nat) (rnd : Nat → ℝ)
    (θ : String → Option (List ℝ)) (Ψ : U64 → ℂ) (reg : BReg) (c' : BContext) (f : Option Fault) :
    C.RunsBatched s L B n rnd θ Ψ reg c' f ↔ C.plain.RunsBatched L B n rnd θ Ψ reg c' f := by
  rw [madeFor_iff] at h
  unfold SCircuit.RunsBatched Circuit.RunsBatched
  rw [show C.plain.gates.length = C.gates.length by simp [SCircuit.plain]]
  cases C.plain.checkBatched B n reg θ with
  | error e => exact Iff.rfl
  | ok _ => exact exists_congr fun m => seqRun_same fun i => step_home_batched fun g hg => h g (List.mem_of_getElem? hg)

/-- **C83.** A circuit without matrix gates runs on states of every space, with the same effect. -/
theorem C83_any_space {C : SCircuit} (h : ∀ e ∈ C.gates, ∀ g ∈ gatesIn e, ¬ MatrixGate g) (s s' : Space) (L n : Nat) (rnd : Nat → ℝ)
    (θ : String → Option ℝ) (ψ : U64 → ℂ) (reg : List Bool) (c' : Context) (f : Option Fault) :
    C.RunsOn s L n rnd θ ψ reg c' f ↔ C.RunsOn s' L n rnd θ ψ reg c' f := by
  rw [C83_own_space (s := s) fun e he g hg hm => absurd hm (h e he g hg),
    C83_own_space (s := s') fun e he g hg hm => absurd hm (h e he g hg)]

/-- **C83.** A matrix gate made for another space throws and leaves state, register and random engine alone: directly, through a view, on a
batch, and when it is the alternative chosen by a probabilistic gate (which has drawn one number). -/
theorem C83_refused {s : Space} {g : SUGate} (hm : MatrixGate g) (hs : g.space ≠ s) (L B n : Nat) (rnd : Nat → ℝ) :
    (∀ c c' f, SGate.RunsOn s L n rnd (.det g) c c' f ↔ c' = c ∧ f = some spaceFault) ∧
    (∀ c c' f, SGate.RunsOnView s L n rnd (.det g) c c' f ↔ c' = c ∧ f = some spaceFault) ∧
    (∀ c c' f, SGate.RunsBatched s L B n rnd (.det g) c c' f ↔ c' = c ∧ f = some spaceFault) ∧
    (∀ (t : ProbTable SUGate) c c' f, t.select (rnd c.pos) = .ok g →
      (SGate.RunsOn s L n rnd (.prob t) c c' f ↔ c' = ⟨c.psi, c.reg, c.pos + 1⟩ ∧ f = some spaceFault)) := by
  have hf : g.foreign s = true := by
    unfold SUGate.foreign
    rw [(matrixGate_iff g).1 hm]
    simp [hs]
  refine ⟨fun c c' f => ?_, fun c c' f => ?_, fun c c' f => ?_, fun t c c' f ht => ?_⟩
  · simp [SGate.RunsOn, SUGate.RunsOn, hf]
  · simp [SGate.RunsOnView, SUGate.RunsOnView, hf]
  · simp [SGate.RunsBatched, hf]
  · simp [SGate.RunsOn, ht, SUGate.RunsOn, hf]

/-- **C83.** Whatever the spaces, an update that finishes has had the effect of the circuit in a single space: nothing is computed with a gate
of another space. -/
theorem C83_finished {s : Space} {C : SCircuit} {L n : Nat} {rnd : Nat → ℝ} {θ : String → Option ℝ} {ψ : U64 → ℂ} {reg : List Bool}
    {c' : Context} (h : C.RunsOn s L n rnd θ ψ reg c' none) : C.plain.RunsOn L n rnd θ ψ reg c' none := by
  unfold SCircuit.RunsOn at h
  unfold Circuit.RunsOn
  rw [show C.plain.gates.length = C.gates.length by simp [SCircuit.plain]]
  cases hc : C.plain.check n θ with
  | error e => rw [hc] at h; exact h
  | ok _ =>
    rw [hc] at h
    obtain ⟨m, h⟩ := h
    exact ⟨m, seqRun_none step_finish h⟩

/-- **C83.** The same for batches. -/
theorem C83_finished_batched {s : Space} {C : SCircuit} {L B n : Nat} {rnd : Nat → ℝ} {θ : String → Option (List ℝ)} {Ψ : U64 → ℂ}
    {reg : BReg} {c' : BContext} (h : C.RunsBatched s L B n rnd θ Ψ reg c' none) : C.plain.RunsBatched L B n rnd θ Ψ reg c' none := by
  unfold SCircuit.RunsBatched at h
  unfold Circuit.RunsBatched
  rw [show C.plain.gates.length = C.gates.length by simp [SCircuit.plain]]
  cases hc : C.plain.checkBatched B n reg θ with
  | error e => rw [hc] at h; exact h
  | ok _ =>
    rw [hc] at h
    obtain ⟨m, h⟩ := h
    exact ⟨m, seqRun_none step_finish_batched h⟩

/-- **C83.** If the first unconditional matrix gate of another space comes after `i` entries, the update ends with an exception and has the effect
of the first `i` entries: either these fail, or they finish and the update stops there. -/
theorem C83_stops {s : Space} {C : SCircuit} {i : Nat} {g : SUGate} (hg : C.gates[i]? = some (.inl (.det g))) (hc : C.conds[i]? = some none)
    (hm : MatrixGate g) (hs : g.space ≠ s) (hb : MadeFor s (C.gates.take i)) {L n : Nat} {rnd : Nat → ℝ} {θ : String → Option ℝ}
    (hchk : C.plain.check n θ = .ok ()) (ψ : U64 → ℂ) (reg : List Bool) :
    (∀ c' f, C.RunsOn s L n rnd θ ψ reg c' f → ∃ e, f = some e ∧
      (Circuit.RunsOn L n rnd θ ⟨C.plain.gates.take i, C.plain.conds.take i⟩ ψ reg c' (some e) ∨
        Circuit.RunsOn L n rnd θ ⟨C.plain.gates.take i, C.plain.conds.take i⟩ ψ reg c' none ∧ ∃ msg, e = .throw msg)) ∧
    (∀ c', Circuit.RunsOn L n rnd θ ⟨C.plain.gates.take i, C.plain.conds.take i⟩ ψ reg c' none →
      ∃ msg, C.RunsOn s L n rnd θ ψ reg c' (some (.throw msg))) := by
  have hi : i < C.gates.length := by
    by_contra hlt
    rw [List.getElem?_eq_none (by omega)] at hg
    cases hg
  rw [madeFor_iff] at hb
  have hf : g.foreign s = true := by
    unfold SUGate.foreign
    rw [(matrixGate_iff g).1 hm]
    simp [hs]
  have hrange : List.range C.gates.length = List.range i ++ List.range' i (C.gates.length - i) := by
    refine List.ext_getElem (by simp; omega) fun j h1 h2 => ?_
    rw [List.getElem_range, List.getElem_append]
    split
    · simp
    · rename_i h3
      simp only [List.length_range] at h3
      simp only [List.length_range, List.getElem_range']
      omega
  have hrange' : List.range' i (C.gates.length - i) = i :: List.range' (i + 1) (C.gates.length - i - 1) := by
    rw [show C.gates.length - i = (C.gates.length - i - 1) + 1 by omega, List.range'_succ]
    congr 1
  have hpre : ∀ {c c' : Context × U64} {f : Option Fault}, SeqRun (C.StepOn s L n rnd θ) (List.range i) c c' f ↔
      SeqRun ((takeCircuit C.plain i).StepOn L n rnd θ) (List.range i) c c' f := by
    intro c c' f
    refine seqRun_congr ?_
    refine List.forall₂_same.2 fun j hj c c' f => ?_
    have hj' : j < i := List.mem_range.1 hj
    rw [take_step hj']
    refine step_home (fun g hg => hb g ?_) c c' f
    exact List.mem_of_getElem? (i := j) (by rw [List.getElem?_take_of_lt hj']; exact hg)
  have hlen : (takeCircuit C.plain i).gates.length = i := by
    simp only [takeCircuit, SCircuit.plain, List.length_take, List.length_map]
    omega
  have hstep : ∀ {c c' : Context × U64} {f : Option Fault}, C.StepOn s L n rnd θ i c c' f → c' = c ∧ ∃ msg, f = some (.throw msg) := by
    intro c c' f h
    unfold SCircuit.StepOn at h
    rw [hg, hc] at h
    simp only [evalCond, SItem.RunsOn] at h
    split at h
    · exact ⟨h.1, _, h.2⟩
    · simp only [SGate.RunsOn, SUGate.RunsOn, hf, if_true] at h
      obtain ⟨⟨h1, h2⟩, h3⟩ := h
      subst h2
      exact ⟨Prod.ext h1 h3, _, rfl⟩
  have hstep' : ∀ c : Context × U64, ∃ msg, C.StepOn s L n rnd θ i c c (some (.throw msg)) := by
    intro c
    unfold SCircuit.StepOn
    rw [hg, hc]
    simp only [evalCond, SItem.RunsOn]
    split
    · exact ⟨_, trivial, rfl⟩
    · refine ⟨"Trying to run on another execution space, but the gate is defined on different execution space.", ?_, rfl⟩
      simp only [SGate.RunsOn, SUGate.RunsOn, hf, if_true]
      exact ⟨trivial, rfl⟩
  have hpc := take_check hchk i
  show (∀ c' f, C.RunsOn s L n rnd θ ψ reg c' f → ∃ e, f = some e ∧
      ((takeCircuit C.plain i).RunsOn L n rnd θ ψ reg c' (some e) ∨
        (takeCircuit C.plain i).RunsOn L n rnd θ ψ reg c' none ∧ ∃ msg, e = .throw msg)) ∧
    (∀ c', (takeCircuit C.plain i).RunsOn L n rnd θ ψ reg c' none → ∃ msg, C.RunsOn s L n rnd θ ψ reg c' (some (.throw msg)))
  unfold SCircuit.RunsOn Circuit.RunsOn
  rw [hchk, hpc, hlen]
  dsimp only
  constructor
  · rintro c' f ⟨m, h⟩
    rw [hrange] at h
    rcases seqRun_split h with ⟨e, rfl, h'⟩ | ⟨c1, h1, h2⟩
    · exact ⟨e, rfl, .inl ⟨m, hpre.1 h'⟩⟩
    · rw [hrange'] at h2
      cases h2 with
      | cons _ _ _ c2 _ _ h2 h3 => obtain ⟨-, msg, h⟩ := hstep h2; cases h
      | stop _ _ _ _ e h2 =>
        obtain ⟨e1, msg, h⟩ := hstep h2
        refine ⟨e, rfl, .inr ⟨⟨m, ?_⟩, msg, Option.some.inj h⟩⟩
        rw [e1]
        exact hpre.1 h1
  · rintro c' ⟨m, h⟩
    obtain ⟨msg, hm⟩ := hstep' (c', m)
    refine ⟨msg, m, ?_⟩
    rw [hrange, hrange']
    exact seqRun_append' (hpre.2 h) (.stop _ _ _ _ _ hm)

/-- **C83.** `get_inverse` succeeds as in a single space and its matrix gates are made for the same space, as are those of joined circuits. -/
theorem C83_inverse {s : Space} {C : SCircuit} :
    (∀ D, C.inverse = .ok D → C.plain.inverse = .ok D.plain ∧ (MadeFor s C.gates → MadeFor s D.gates)) ∧
    (∀ e, C.inverse = .error e ↔ C.plain.inverse = .error e) ∧
    (∀ D : SCircuit, (C.addCircuit D).plain = C.plain.addCircuit D.plain ∧
      (MadeFor s (C.addCircuit D).gates ↔ MadeFor s C.gates ∧ MadeFor s D.gates)) := by
  refine ⟨fun D h => ⟨?_, fun hm => ?_⟩, fun e => ?_, fun D => ⟨?_, ?_⟩⟩
  · rw [cplain_inverse, h]; rfl
  · rw [madeFor_iff] at hm ⊢
    exact cinverse_home hm h
  · rw [cplain_inverse]
    cases C.inverse with
    | error e' => exact ⟨fun h => (by cases h; rfl), fun h => (by cases h; rfl)⟩
    | ok D => exact ⟨fun h => (by cases h), fun h => (by cases h)⟩
  · simp [SCircuit.addCircuit, SCircuit.plain, Circuit.addCircuit]
  · simp only [MadeFor, SCircuit.addCircuit, List.mem_append, or_imp, forall_and]

/-- the identity on one qubit as a matrix -/
noncomputable def idMat2 : DMat ℂ := ⟨2, 2, fun r s => if r = s then 1 else 0⟩

theorem idMat2_gate (s : Space) : ∃ g, SUGate.build s (.dense [1] idMat2 [0] [1] true) = .ok g ∧ MatrixGate g ∧ g.space = s := by
  obtain ⟨o, ho⟩ := operands_exist (ts := [1]) (cs := [0]) (vs := [1]) (by simp) (by simp) (by simp)
    (by simp) (by simp) (by simp [effectiveValues]) (by simp [effectiveValues])
  obtain ⟨g, hg⟩ := build_dense (u := true) (M := idMat2) ho (by simp) rfl rfl
  refine ⟨⟨g, s⟩, by unfold SUGate.build; rw [hg]; rfl, .inl ?_, rfl⟩
  obtain ⟨x, -, h⟩ := bind_ok (show (do let g ← mkDense [1] idMat2 [0] [1] true; pure (UGate.dense g)) = .ok g from hg)
  cases h
  exact ⟨_, rfl⟩

/-- non-trivial case of the hypotheses: an X gate, then a controlled matrix gate, made for `HostSerial` -/
example : ∃ (C : SCircuit) (g : SUGate), C.gates[1]? = some (.inl (.det g)) ∧ C.conds[1]? = some none ∧ MatrixGate g ∧
    g.space ≠ .Host ∧ MadeFor .Host (C.gates.take 1) ∧ MadeFor .HostSerial C.gates ∧ C.plain.check 64 (fun _ => none) = .ok () := by
  obtain ⟨g, -, hm, hs⟩ := idMat2_gate .HostSerial
  refine ⟨⟨[.inl (.det ⟨.one .X ⟨1#64, 0, 0⟩, .Host⟩), .inl (.det g)], [none, none]⟩, g, rfl, rfl, hm, by rw [hs]; decide, ?_, ?_, ?_⟩
  · intro e he u hu hm
    rcases List.mem_singleton.1 he with rfl
    rcases List.mem_singleton.1 hu with rfl
    rfl
  · intro e he u hu hm
    rcases List.mem_cons.1 he with rfl | he
    · rcases List.mem_singleton.1 hu with rfl
      rcases hm with ⟨d, hm⟩ | ⟨d, hm⟩ <;> cases hm
    · rcases List.mem_singleton.1 he with rfl
      rcases List.mem_singleton.1 hu with rfl
      exact hs
  · unfold Circuit.check Circuit.checkQubits
    rw [if_neg]
    · rfl
    · have : Circuit.requiredQubits (SCircuit.plain ⟨[.inl (.det ⟨.one .X ⟨1#64, 0, 0⟩, .Host⟩), .inl (.det g)], [none, none]⟩) ≤ 64 := by
        unfold Circuit.requiredQubits
        rw [bitWidth_le_iff]
        intro i hi
        exact BitVec.lt_of_getLsbD hi
      omega

end Verif.Props
