import Verif.Props.GatePtr
import Verif.Props.GradientWide
import Verif.Props.Noise
import Verif.Proofs.TaggedGood
import Verif.Proofs.TaggedGrad

/-! # C81: what circuits do with the types of their gates -/

namespace Verif.Props
open Verif Verif.Spec Verif.Model Verif.Proofs
attribute [-simp] BitVec.getLsbD_eq_getElem

/-- the circuits that can be made: of gates from factories, by inverting, by joining, by optimising -/
inductive AssembledTagged : TCircuit → Prop
  | made (C : Circuit) : AssembledTagged (.make C)
  | inverse (C D : TCircuit) : AssembledTagged C → C.inverse = .ok D → AssembledTagged D
  | joined (C D : TCircuit) : AssembledTagged C → AssembledTagged D → AssembledTagged (C.addCircuit D)
  | optimised (C : TCircuit) (mb : Nat) (r : TCircuit × List (TGate × TGate)) : AssembledTagged C → C.optimize mb = .ok r → AssembledTagged r.1

theorem assembled_good {C : TCircuit} (h : AssembledTagged C) : GoodCircuit C := by
  induction h with
  | made C => exact goodCircuit_make C
  | inverse C D _ h _ => exact (circuit_inverse h).2.2
  | joined C D _ _ h1 h2 => exact fun g hg => (List.mem_append.1 hg).elim (h1 g) (h2 g)
  | optimised C mb r _ h ih => exact good_optimize ih h

/-- **C81 (types of the gates of a circuit).** In every circuit made of factory gates by inverting, joining and optimising, `gate_type()` of a gate is
the type of its class or `Unknown`; a measurement is never `Unknown`. -/
theorem C81_circuit_types {C : TCircuit} (h : AssembledTagged C) :
    (∀ g : TGate, Sum.inl g ∈ C.gates → g.tag = g.obj.cls.type ∨ (g.tag = .Unknown ∧ ∀ m, g.obj ≠ .meas m)) ∧
    ∀ (p : TPGate) (key : String), Sum.inr (p, key) ∈ C.gates → p.tag = p.obj.cls.type ∨ p.tag = .Unknown :=
  ⟨fun _ hg => assembled_good h _ hg, fun _ _ hg => assembled_good h _ hg⟩

/-- **C81 (running).** `update_quantum_state` of every such circuit, with and without register and on batches, does what its gate objects do, whatever
`gate_type()` says. -/
theorem C81_running {C : TCircuit} (h : AssembledTagged C) (L n : Nat) (rnd : Nat → ℝ) :
    (∀ params ψ reg c' f, C.RunsOn L n rnd params ψ reg c' f ↔ C.plain.RunsOn L n rnd params ψ reg c' f) ∧
    (∀ params ψ ψ' f, C.RunsPlain L n rnd params ψ ψ' f ↔ C.plain.RunsPlain L n rnd params ψ ψ' f) ∧
    ∀ B params Ψ reg c' f, C.RunsBatched L B n rnd params Ψ reg c' f ↔ C.plain.RunsBatched L B n rnd params Ψ reg c' f :=
  ⟨fun _ _ _ _ _ => circuit_runsOn (assembled_good h) .., fun _ _ _ _ => circuit_runsPlain (assembled_good h) ..,
    fun _ _ _ _ _ _ => circuit_runsBatched (assembled_good h) ..⟩

/-- **C81 (inverses).** `get_inverse` succeeds exactly if it does for the gate objects, and gives their inverses; every gate of the result has the type
`Unknown`. -/
theorem C81_inverse (C : TCircuit) :
    (∀ D0, C.plain.inverse = .ok D0 → ∃ D, C.inverse = .ok D ∧ D.plain = D0) ∧
    ∀ D, C.inverse = .ok D → C.plain.inverse = .ok D.plain ∧ (∀ g, Sum.inl g ∈ D.gates → g.tag = .Unknown) ∧
      ∀ p key, Sum.inr (p, key) ∈ D.gates → p.tag = .Unknown :=
  ⟨fun _ h => circuit_inverse_iff h, fun _ h => ⟨(circuit_inverse h).1, fun _ hg => (circuit_inverse h).2.1 _ hg,
    fun _ _ hg => (circuit_inverse h).2.1 _ hg⟩⟩

/-- **C81 (factory gates).** For a circuit of gates made by factories the functions that ask `gate_type()` do what they do if they ask for the class of
the object: optimising, noise simulation, gradients, export. -/
theorem C81_made (C : Circuit) :
    (TCircuit.make C).plain = C ∧
    (∀ mb, ((TCircuit.make C).optimize mb).map (fun r => r.1) = (C.optimize mb).map fun r => TCircuit.make r.1) ∧
    (∀ L n draws params ψ shots out, (TCircuit.make C).SimulatesNoise L n draws params ψ shots out ↔
      C.SimulatesNoise L n draws params ψ shots out) ∧
    (∀ L eps rnd params obs junk r, 0 < eps → ((TCircuit.make C).Gradient L eps rnd params obs junk r ↔ C.Gradient L eps rnd params obs junk r)) ∧
    ∀ lib n, (TCircuit.make C).dumps lib n = dumps lib C n := by
  refine ⟨circuit_plain_make C, fun mb => ?_, fun L n draws params ψ shots out => ?_, fun L eps rnd params obs junk r he => ?_,
    fun lib n => dumps_make lib C n⟩
  · rw [optimize_make]
    cases C.optimize mb <;> rfl
  · have := circuit_simulatesNoise (C := TCircuit.make C) (by
      intro g hg
      obtain ⟨g, -, rfl⟩ := List.mem_map.1 hg
      exact noiseTag_make g) L n draws params ψ shots out
    rwa [circuit_plain_make] at this
  · have := circuit_gradient (goodCircuit_make C) (by
      intro g hg
      obtain ⟨g, -, rfl⟩ := List.mem_map.1 hg
      rcases g with g | ⟨p, k⟩
      · trivial
      · exact .inl rfl) L he rnd params obs junk r
    rwa [circuit_plain_make] at this

/-- **C81 (noise, partial).** `simulate_noise` treats every gate by its class if no random choice of the circuit has the type `Unknown`.
Missing: inverse circuits with random choices (`C81_noise_counterexample`). -/
theorem C81_noise_partial {C : TCircuit} (h : AssembledTagged C) (hg : ∀ g, Sum.inl g ∈ C.gates → g.tag = .Unknown → ∀ t, g.obj ≠ .prob t)
    (hp : ∀ p key, Sum.inr (p, key) ∈ C.gates → p.tag = .Unknown → ∀ t, p.obj ≠ .prob t) (L n : Nat) (draws : Nat → Nat)
    (params : String → Option ℝ) (ψ : U64 → ℂ) (shots : Nat) (out : Res (List ((U64 → ℂ) × Int))) :
    C.SimulatesNoise L n draws params ψ shots out ↔ C.plain.SimulatesNoise L n draws params ψ shots out := by
  refine circuit_simulatesNoise (fun g hmem => ?_) L n draws params ψ shots out
  rcases g with g | ⟨p, key⟩
  · rcases (C81_circuit_types h).1 g hmem with ht | ⟨ht, hm⟩
    · exact .inl ht
    · refine .inr ⟨ht, ?_⟩
      cases ho : g.obj with
      | det u => exact ⟨u, rfl⟩
      | prob t => exact absurd ho (hg g hmem ht t)
      | meas m => exact absurd ho (hm m)
  · rcases (C81_circuit_types h).2 p key hmem with ht | ht
    · exact .inl ht
    · refine .inr ⟨ht, ?_⟩
      cases ho : p.obj with
      | rot r => exact ⟨r, rfl⟩
      | prob t => exact absurd ho (hp p key hmem ht t)

/-- **C81 (gradients, partial).** `compute_expectation_gradient` treats every parametric gate by its class if the Pauli rotations of type `Unknown`
have coefficient 1.  Missing: inverse circuits with other Pauli rotations (`C81_gradient_counterexample`). -/
theorem C81_gradient_partial {C : TCircuit} (h : AssembledTagged C) (hp : ∀ p key, Sum.inr (p, key) ∈ C.gates → p.tag = .Unknown →
      ∀ q c, p.obj = .rot (.pauli q c) → q.p.coef = 1) (L : Nat) {eps : ℝ} (he : 0 < eps) (rnd : Nat → ℝ) (params : String → Option ℝ) (obs : Op)
    (junk : U64 → ℂ) (r : Res (String → Option ℝ)) : C.Gradient L eps rnd params obs junk r ↔ C.plain.Gradient L eps rnd params obs junk r := by
  refine circuit_gradient (assembled_good h) (fun g hmem => ?_) L he rnd params obs junk r
  rcases g with g | ⟨p, key⟩
  · trivial
  · rcases (C81_circuit_types h).2 p key hmem with ht | ht
    · exact .inl ht
    · exact .inr ⟨ht, fun q c e => hp p key hmem ht q c e⟩

/-- **C81 (export, counterexample).** No inverse circuit with a gate can be exported to OpenQASM, whatever its gates. -/
theorem C81_export_counterexample {C D : TCircuit} (hD : C.inverse = .ok D) (hne : D.gates ≠ []) (lib : Libc) (n : Option Nat) :
    ∃ m, D.dumps lib n = .error (.throw m) := by
  obtain ⟨-, hu, -⟩ := circuit_inverse hD
  obtain ⟨gs, cs⟩ := D
  cases gs with
  | nil => exact absurd rfl hne
  | cons g gs =>
    obtain ⟨m, hm⟩ := classify_unknown (hu g List.mem_cons_self) lib (0, 0, [])
    refine ⟨m, ?_⟩
    show (do
      let (requiredQ, requiredC, body) ← (g :: gs).foldlM (tdumpStep lib) (0, 0, [])
      _ : Res Text) = _
    rw [List.foldlM_cons, hm]
    rfl

/-- **C81 (noise, counterexample).** `simulate_noise` of an inverse circuit never distinguishes outcomes: if it finishes, all shots share one state,
whatever random choices the circuit contains. -/
theorem C81_noise_counterexample {C D : TCircuit} (hD : C.inverse = .ok D) {L n : Nat} {draws : Nat → Nat} {params : String → Option ℝ}
    {ψ : U64 → ℂ} {shots : Nat} (hs : 0 < shots) {l : List ((U64 → ℂ) × Int)} (hr : D.SimulatesNoise L n draws params ψ shots (.ok l)) :
    ∃ φ, l = [(φ, toInt64 shots)] := noise_unknown (circuit_inverse hD).2.1 hs hr

/-- the type that the documentation gives to the gates of a factory -/
def factoryType : GateDesc → GateType
  | .ident => .I
  | .globalPhase _ _ _ => .GlobalPhase
  | .one k _ _ _ => match k with
    | .X => .X | .Y => .Y | .Z => .Z | .H => .H | .S => .S | .Sdag => .Sdag | .T => .T | .Tdag => .Tdag
    | .SqrtX => .SqrtX | .SqrtXdag => .SqrtXdag | .SqrtY => .SqrtY | .SqrtYdag => .SqrtYdag | .P0 => .P0 | .P1 => .P1
    | .RX _ => .RX | .RY _ => .RY | .RZ _ => .RZ | .U1 _ => .U1 | .U2 _ _ => .U2 | .U3 _ _ _ => .U3
  | .swap _ _ _ _ => .Swap
  | .ecr _ _ _ _ => .Ecr
  | .perm _ => .Permutation
  | .dense _ _ _ _ _ => .DenseMatrix
  | .sparse _ _ _ _ => .SparseMatrix
  | .pauli _ _ _ => .Pauli
  | .pauliRot _ _ _ _ => .PauliRotation

/-- **C81 (types of factory gates).** `gate_type()` of a gate made by a factory is the type of this factory. -/
theorem C81_made_types {d : GateDesc} {g : UGate} (h : d.build = .ok g) : (TGate.make (.det g)).tag = factoryType d := by
  cases d with
  | ident => cases h; rfl
  | one k q cs vs =>
    obtain ⟨o, -, h⟩ := bind_ok h
    cases h
    cases k <;> rfl
  | _ =>
    obtain ⟨o, -, h⟩ := bind_ok h
    cases h
    rfl

/-- **C81 (flattening).** A random choice made of factory gates: measurements are refused, random choices are replaced by their
alternatives, and other gates are alternatives themselves. -/
theorem C81_flatten_made (dist : List (Option ℝ)) (gs : List Gate) : mkTaggedProbTable dist (gs.map .make) =
    mkProbTable dist (gs.map fun g => match g with
      | .meas _ => .measurement
      | .prob t => .nested ⟨t.dist, t.cum, t.gates.map .det⟩
      | .det u => .leaf (.det u)) := by
  have : (gs.map TGate.make).mapM TGate.component = .ok (gs.map fun g => match g with
      | .meas _ => .measurement
      | .prob t => .nested ⟨t.dist, t.cum, t.gates.map .det⟩
      | .det u => .leaf (.det u)) := by
    induction gs with
    | nil => rfl
    | cons g gs ih =>
      rw [List.map_cons, List.mapM_cons, ih]
      cases g with
      | meas m => rfl
      | prob t => rfl
      | det u =>
        have : (TGate.make (.det u)).component = .ok (.leaf (.det u)) := by
          cases u with
          | one k o => cases k <;> rfl
          | _ => rfl
        rw [this]
        rfl
  unfold mkTaggedProbTable
  rw [this]
  rfl

/-- **C81 (flattening, counterexample).** A random choice made of the inverse of a random choice contains this as one alternative; made of the random
choice itself it contains its alternatives. -/
theorem C81_flatten_counterexample (t : ProbTable UGate) (ht : t.dist.length = t.gates.length) (hsum : t.dist.sum = 1) :
    mkTaggedProbTable [some 1] [⟨.prob t, .Unknown⟩] = .ok ⟨[1], [0, 1], [.prob t]⟩ ∧
    ∃ r, mkTaggedProbTable [some 1] [.make (.prob t)] = .ok r ∧ r.dist = t.dist ∧ r.gates = t.gates.map .det := by
  have hchk : checkProbabilities [some (1 : ℝ)] = .ok [1] := by
    unfold checkProbabilities checkProbabilities
    rw [if_neg (by norm_num)]
    rfl
  constructor
  · show mkProbTable [some 1] [Component.leaf (Gate.prob t)] = _
    unfold mkProbTable
    rw [if_neg (by simp), if_neg (by simp), hchk, ok_bind]
    show (if |(0 : ℝ) + 1 - 1| > 1 / 10 ^ 6 then _ else _) = _
    rw [if_neg (by norm_num)]
    show (.ok _ : Res _) = .ok _
    rw [show List.scanl (fun a b : ℝ => a + b) 0 (List.map (fun x : ℝ × Gate => x.1) ([(1, Gate.prob t)] ++ [])) = [0, 1] from by
      simp]
    rfl
  · have hflat : flattenAll [(1 : ℝ)] [Component.nested ⟨t.dist, t.cum, t.gates.map Gate.det⟩] =
        .ok (((t.dist.zip (t.gates.map Gate.det)).map fun p : ℝ × Gate => (1 * p.1, p.2)) ++ []) := by
      unfold flattenAll flattenGate
      dsimp only
      rw [if_pos (show t.dist.length ≤ (t.gates.map Gate.det).length by simp [ht])]
      rfl
    have h1 : (((t.dist.zip (t.gates.map Gate.det)).map fun p : ℝ × Gate => ((1 : ℝ) * p.1, p.2)) ++ []).map (fun x : ℝ × Gate => x.1) = t.dist := by
      rw [List.append_nil, List.map_map]
      conv_rhs => rw [← List.map_fst_zip (l₁ := t.dist) (l₂ := t.gates.map Gate.det) (by simp [ht])]
      exact List.map_congr_left fun p _ => one_mul _
    have h2 : (((t.dist.zip (t.gates.map Gate.det)).map fun p : ℝ × Gate => ((1 : ℝ) * p.1, p.2)) ++ []).map (fun x : ℝ × Gate => x.2) = t.gates.map Gate.det := by
      rw [List.append_nil, List.map_map]
      conv_rhs => rw [← List.map_snd_zip (l₁ := t.dist) (l₂ := t.gates.map Gate.det) (by simp [ht])]
      rfl
    have hlast : (t.dist.scanl (· + ·) 0).getLast? = some 1 := by
      rw [List.getLast?_eq_some_getLast (by simp), List.getLast_scanl, ← List.sum_eq_foldl, hsum]
    refine ⟨⟨t.dist, t.dist.scanl (· + ·) 0, t.gates.map .det⟩, ?_, rfl, rfl⟩
    show mkProbTable [some 1] [Component.nested ⟨t.dist, t.cum, t.gates.map Gate.det⟩] = _
    unfold mkProbTable
    rw [if_neg (by simp), if_neg (by simp), hchk, ok_bind, hflat, ok_bind]
    dsimp only
    rw [h1, h2, hlast]
    dsimp only
    rw [if_neg (by norm_num)]
    rfl

/-- a global phase of 1 -/
noncomputable def phaseCircuit : Circuit := ⟨[.inl (.det (.globalPhase 1 ⟨0, 0, 0⟩))], [none]⟩

theorem plain_inl (g : TGate) : TItem.plain (.inl g) = .inl g.obj := rfl

theorem sortUnique_nil : sortUnique (([] : List (Option Nat)).filterMap id) = [] := by simp [sortUnique, uniqueAdj]

/-- **C81 (optimising, counterexample).** `optimize` drops the global phase of an inverse circuit: the inverse of a single phase gate becomes the empty
circuit, while the same gate made by its factory stays. -/
theorem C81_optimize_phase_counterexample : ∃ D, (TCircuit.make phaseCircuit).inverse = .ok D ∧
    D.plain = ⟨[.inl (.det (.globalPhase (-1) ⟨0, 0, 0⟩))], [none]⟩ ∧
    ∀ mb, D.optimize mb = .ok (⟨[], []⟩, []) ∧
      (TCircuit.make D.plain).optimize mb = .ok (TCircuit.make D.plain, []) := by
  have hm0 : maskToVector ((0 : U64) ||| 0) = [] := by rw [show (0 : U64) ||| 0 = 0 from rfl, maskToVector_zero]
  refine ⟨⟨[.inl ⟨.det (.globalPhase (-1) ⟨0, 0, 0⟩), .Unknown⟩], [none]⟩, rfl, rfl, fun mb => ⟨?_, ?_⟩⟩
  · have hs : TOptState.step mb ⟨[], [], 0, [], [], []⟩ none (.inl ⟨.det (.globalPhase (-1) ⟨0, 0, 0⟩), .Unknown⟩) =
        .ok ⟨[], [], 0, [⟨.det (.globalPhase (-1) ⟨0, 0, 0⟩), .Unknown⟩], [], []⟩ := by
      show TOptState.mergeable ⟨[], [], 0, [], [], []⟩ mb ⟨.det (.globalPhase (-1) ⟨0, 0, 0⟩), .Unknown⟩ = _
      unfold TOptState.mergeable TOptState.waitingIndices
      rw [show Item.operandList (TItem.plain (.inl ⟨.det (.globalPhase (-1) ⟨0, 0, 0⟩), .Unknown⟩)) = [] from hm0]
      rw [show (([] : List Nat).mapM (elemAt ([] : List (Option Nat))) : Res (List (Option Nat))) = .ok [] from rfl, ok_bind]
      rw [sortUnique_nil, show (pure ([] : List Nat) : Res (List Nat)) = .ok [] from rfl, ok_bind, if_pos rfl]
      unfold TOptState.wait
      rw [show Item.operandList (.inl (TGate.obj ⟨.det (.globalPhase (-1) ⟨0, 0, 0⟩), .Unknown⟩)) = [] from hm0]
      rfl
    have hloop : TCircuit.optLoop ⟨[.inl ⟨.det (.globalPhase (-1) ⟨0, 0, 0⟩), .Unknown⟩], [none]⟩ mb ⟨[], [], 0, [], [], []⟩ =
        .ok ⟨[], [], 0, [⟨.det (.globalPhase (-1) ⟨0, 0, 0⟩), .Unknown⟩], [], []⟩ := by
      unfold TCircuit.optLoop
      show [0].foldlM _ _ = _
      rw [List.foldlM_cons]
      show (do let s ← TOptState.step mb ⟨[], [], 0, [], [], []⟩ none (.inl ⟨.det (.globalPhase (-1) ⟨0, 0, 0⟩), .Unknown⟩); [].foldlM _ s) = _
      rw [hs]
      rfl
    unfold TCircuit.optimize
    rw [show Circuit.requiredQubits (TCircuit.plain ⟨[.inl ⟨.det (.globalPhase (-1) ⟨0, 0, 0⟩), .Unknown⟩], [none]⟩) = 0 from rfl,
      List.replicate_zero, hloop, ok_bind]
    unfold TOptState.finish
    rw [sortUnique_nil]
    show (do let s ← (if |(0 : ℝ)| > 1e-12 then _ else _ : Res TOptState); _) = _
    rw [if_neg (by norm_num)]
    rfl
  · have hloop : TCircuit.optLoop (TCircuit.make ⟨[.inl (.det (.globalPhase (-1) ⟨0, 0, 0⟩))], [none]⟩) mb ⟨[], [], 0, [], [], []⟩ =
        .ok ⟨[], [], 0 + -1, [], [], []⟩ := rfl
    show TCircuit.optimize (TCircuit.make ⟨[.inl (.det (.globalPhase (-1) ⟨0, 0, 0⟩))], [none]⟩) mb = _
    unfold TCircuit.optimize
    rw [show Circuit.requiredQubits (TCircuit.plain (TCircuit.make ⟨[.inl (.det (.globalPhase (-1) ⟨0, 0, 0⟩))], [none]⟩)) = 0 from rfl,
      List.replicate_zero, hloop, ok_bind]
    unfold TOptState.finish
    rw [sortUnique_nil, zero_add]
    show (do let s ← (if |(-1 : ℝ)| > 1e-12 then TOptState.push ⟨[], [], -1, [], [], []⟩ (.inl (.make (.det (.globalPhase (-1) ⟨0, 0, 0⟩)))) none
      else _ : Res TOptState); _) = _
    rw [if_pos (by norm_num)]
    unfold TOptState.push
    rw [plain_inl, show Item.operandList (.inl (TGate.make (.det (.globalPhase (-1) ⟨0, 0, 0⟩))).obj) = [] from hm0]
    rfl

/-- **C81 (optimising, counterexample).** `optimize` throws on an inverse circuit in which a random choice follows another gate on its qubit. -/
theorem C81_optimize_choice_counterexample : ∃ (C : Circuit) (D : TCircuit), buildCircuit [⟨.choice [1] [.one .X 0 [] []], none⟩,
      ⟨.gate (.one .X 0 [] []), none⟩] = .ok C ∧ (TCircuit.make C).inverse = .ok D ∧ ∀ mb, ∃ m, D.optimize mb = .error (.throw m) := by
  have hm1 : maskToVector ((1 : U64) ||| 0) = [0] := by rw [show (1 : U64) ||| 0 = 1#64 from rfl, mask_one]
  have hm1' : maskToVector ((0 : U64) ||| ((1 : U64) ||| 0)) = [0] := by rw [show (0 : U64) ||| ((1 : U64) ||| 0) = 1#64 from rfl, mask_one]
  have hchk : checkProbabilities [some (1 : ℝ)] = .ok [1] := by
    unfold checkProbabilities checkProbabilities
    rw [if_neg (by norm_num)]
    rfl
  set X : UGate := .one .X ⟨1, 0, 0⟩ with hX
  set P : ProbTable UGate := ⟨[1], [0, 1], [X]⟩ with hP
  have htab : mkProbTable [some 1] [Component.leaf X] = .ok P := by
    unfold mkProbTable
    rw [if_neg (by simp), if_neg (by simp), hchk, ok_bind]
    show (if |(0 : ℝ) + 1 - 1| > 1 / 10 ^ 6 then _ else _) = _
    rw [if_neg (by norm_num)]
    show (.ok _ : Res _) = .ok _
    rw [show List.scanl (fun a b : ℝ => a + b) 0 (List.map (fun x : ℝ × UGate => x.1) ([(1, X)] ++ [])) = [0, 1] from by
      simp]
    rfl
  have htab' : mkProbabilistic [some 1] [Gate.det X] = .ok (.prob P) := by
    show (do let t ← mkProbTable [some 1] [Component.leaf X]; pure (Gate.prob t)) = _
    rw [htab]; rfl
  have hline : addLine Circuit.empty ⟨.choice [1] [.one .X 0 [] []], none⟩ = .ok ⟨[.inl (.prob P)], [none]⟩ := by
    have hb : (Instr.choice [1] [.one .X 0 [] []]).build = .ok (.inl (.prob P)) := by
      show (do
        let gs ← [GateDesc.one .X 0 [] []].mapM GateDesc.build
        let g ← mkProbabilistic ([1].map some) (gs.map .det)
        pure (Sum.inl g) : Res Item) = _
      rw [show [GateDesc.one .X 0 [] []].mapM GateDesc.build = .ok [X] from rfl, ok_bind]
      show (do let g ← mkProbabilistic [some 1] [Gate.det X]; pure (Sum.inl g) : Res Item) = _
      rw [htab']; rfl
    unfold addLine
    rw [hb]; rfl
  have hb : buildCircuit [⟨.choice [1] [.one .X 0 [] []], none⟩, ⟨.gate (.one .X 0 [] []), none⟩] =
      .ok ⟨[.inl (.prob P), .inl (.det X)], [none, none]⟩ := by
    unfold buildCircuit
    rw [List.foldlM_cons, hline]
    rfl
  have hp : TItem.inverse (.inl (.make (.prob P))) = .ok (.inl ⟨.prob P, .Unknown⟩) := by
    show (do
      let g' ← (do
        let o ← (do
          let t ← mkProbTable [some 1] [Component.leaf X]
          pure (Gate.prob t) : Res Gate)
        pure ⟨o, .Unknown⟩ : Res TGate)
      pure (.inl g') : Res TItem) = _
    rw [htab]
    rfl
  have hi : (TCircuit.make ⟨[.inl (.prob P), .inl (.det X)], [none, none]⟩).inverse =
      .ok ⟨[.inl ⟨.det X, .Unknown⟩, .inl ⟨.prob P, .Unknown⟩], [none, none]⟩ := by
    unfold TCircuit.inverse
    show [0, 1].foldlM _ _ = _
    rw [List.foldlM_cons]
    rw [show TCircuit.inverseStep (TCircuit.make ⟨[.inl (.prob P), .inl (.det X)], [none, none]⟩) ⟨[], []⟩ 0 =
      .ok ⟨[.inl ⟨.det X, .Unknown⟩], [none]⟩ from rfl, ok_bind, List.foldlM_cons]
    have : TCircuit.inverseStep (TCircuit.make ⟨[.inl (.prob P), .inl (.det X)], [none, none]⟩) ⟨[.inl ⟨.det X, .Unknown⟩], [none]⟩ 1 =
        .ok ⟨[.inl ⟨.det X, .Unknown⟩, .inl ⟨.prob P, .Unknown⟩], [none, none]⟩ := by
      show (do
        let g' ← TItem.inverse (.inl (.make (.prob P)))
        pure ⟨[.inl ⟨.det X, .Unknown⟩] ++ [g'], [none] ++ [none]⟩ : Res TCircuit) = _
      rw [hp]
      rfl
    rw [this]
    rfl
  refine ⟨_, _, hb, hi, fun mb => ⟨"ProbabilisticGateImpl::control_qubit_mask(): This function must not be used in ProbabilisticGateImpl.", ?_⟩⟩
  have hs1 : TOptState.step mb ⟨[], [], 0, [], [none], []⟩ none (.inl ⟨.det X, .Unknown⟩) = .ok ⟨[], [], 0, [⟨.det X, .Unknown⟩], [some 0], []⟩ := by
    show TOptState.mergeable ⟨[], [], 0, [], [none], []⟩ mb ⟨.det X, .Unknown⟩ = _
    unfold TOptState.mergeable TOptState.waitingIndices
    rw [show Item.operandList (TItem.plain (.inl ⟨.det X, .Unknown⟩)) = [0] from hm1]
    rw [show ([0].mapM (elemAt [none]) : Res (List (Option Nat))) = .ok [none] from rfl, ok_bind]
    rw [show (pure (sortUnique ([none].filterMap id)) : Res (List Nat)) = .ok [] by simp [sortUnique, uniqueAdj]; rfl, ok_bind, if_pos rfl]
    unfold TOptState.wait
    rw [show Item.operandList (.inl (TGate.obj ⟨.det X, .Unknown⟩)) = [0] from hm1]
    rfl
  have hs2 : TOptState.step mb ⟨[], [], 0, [⟨.det X, .Unknown⟩], [some 0], []⟩ none (.inl ⟨.prob P, .Unknown⟩) =
      .error (.throw "ProbabilisticGateImpl::control_qubit_mask(): This function must not be used in ProbabilisticGateImpl.") := by
    show TOptState.mergeable ⟨[], [], 0, [⟨.det X, .Unknown⟩], [some 0], []⟩ mb ⟨.prob P, .Unknown⟩ = _
    unfold TOptState.mergeable TOptState.waitingIndices
    rw [show Item.operandList (TItem.plain (.inl ⟨.prob P, .Unknown⟩)) = [0] from hm1']
    rw [show ([0].mapM (elemAt [some 0]) : Res (List (Option Nat))) = .ok [some 0] from rfl, ok_bind]
    rw [show (pure (sortUnique ([some 0].filterMap id)) : Res (List Nat)) = .ok [0] by simp [sortUnique, uniqueAdj]; rfl, ok_bind, if_neg (by simp)]
    unfold TOptState.shouldMerge TOptState.newlyApplied
    rw [show Item.operandList (TItem.plain (.inl ⟨.prob P, .Unknown⟩)) = [0] from hm1']
    rfl
  unfold TCircuit.optimize
  rw [show Circuit.requiredQubits (TCircuit.plain ⟨[.inl ⟨.det X, .Unknown⟩, .inl ⟨.prob P, .Unknown⟩], [none, none]⟩) = 1 from by
    show bitWidth (((0 : U64) ||| ((1 : U64) ||| 0)) ||| ((0 : U64) ||| ((1 : U64) ||| 0))) = 1
    rfl]
  have hloop : TCircuit.optLoop ⟨[.inl ⟨.det X, .Unknown⟩, .inl ⟨.prob P, .Unknown⟩], [none, none]⟩ mb ⟨[], [], 0, [], [none], []⟩ =
      .error (.throw "ProbabilisticGateImpl::control_qubit_mask(): This function must not be used in ProbabilisticGateImpl.") := by
    unfold TCircuit.optLoop
    show [0, 1].foldlM _ _ = _
    rw [List.foldlM_cons]
    show (do let s ← TOptState.step mb ⟨[], [], 0, [], [none], []⟩ none (.inl ⟨.det X, .Unknown⟩); [1].foldlM _ s) = _
    rw [hs1, ok_bind, List.foldlM_cons]
    show (do let s ← TOptState.step mb ⟨[], [], 0, [⟨.det X, .Unknown⟩], [some 0], []⟩ none (.inl ⟨.prob P, .Unknown⟩); [].foldlM _ s) = _
    rw [hs2]
    rfl
  show (do let s ← TCircuit.optLoop ⟨[.inl ⟨.det X, .Unknown⟩, .inl ⟨.prob P, .Unknown⟩], [none, none]⟩ mb ⟨[], [], 0, [], [none], []⟩; _) = _
  rw [hloop]
  rfl

/-- a parametric rotation about 2X of qubit 0, with factor `k` -/
noncomputable def doubleLines (k : ℝ) : List Line := [⟨.rot (.pauli ⟨2, 1, 0⟩ k [] []) "a", none⟩]

/-- **C81 (gradients, counterexample).** The gradient of an inverse circuit is wrong if a Pauli rotation has another coefficient than 1: the
expectation value of the identity is constant (derivative 0), yet the gradient returned for the inverse of a rotation about 2X is -1. -/
theorem C81_gradient_counterexample : ∃ (C : Circuit) (D : TCircuit), buildCircuit (doubleLines 1) = .ok C ∧ (TCircuit.make C).inverse = .ok D ∧
    buildCircuit (doubleLines (-1)) = .ok D.plain ∧ ∀ (L : Nat), LanesOK L → ∀ (eps t : ℝ) (rnd junk) (r : Res (String → Option ℝ)),
      (D.Gradient L eps rnd (fun k => if k = "a" then some t else none) (Op.ofTerms [⟨1, 0, 0⟩]) junk r ↔
        r = .ok fun k => if k = "a" then some (-1) else none) ∧
      HasDerivAt (fun t => expectationOf 1 (doubleLines (-1)) (Op.ofTerms [⟨1, 0, 0⟩]).terms fun k => if k = "a" then some t else none) 0 t := by
  set D0 : Circuit := ⟨[.inr (.rot (.pauli ⟨⟨2, 1, 0⟩, ⟨1, 0, 0⟩⟩ (-1)), "a")], [none]⟩ with hD0
  set D : TCircuit := ⟨[.inr (⟨.rot (.pauli ⟨⟨2, 1, 0⟩, ⟨1, 0, 0⟩⟩ (-1)), .Unknown⟩, "a")], [none]⟩ with hDdef
  have hplain : D.plain = D0 := rfl
  have hb : buildCircuit (doubleLines (-1)) = .ok D0 := rfl
  have hreq : D0.requiredQubits = 1 := by
    show bitWidth ((0 : U64) ||| ((1 : U64) ||| 0)) = 1
    rfl
  have hok : ∀ l ∈ doubleLines (-1), l.instr.OK := by
    intro l hl
    simp only [doubleLines, List.mem_singleton] at hl
    subst hl; trivial
  have hq1 : pauliQubits ⟨2, 1, 0⟩ = [0] := by simp only [pauliQubits]; decide
  have hqs : ∀ (t : ℝ), ∀ q ∈ qubitsOf ((RotDesc.pauli ⟨2, 1, 0⟩ (-1) [] []).at t), q < 1 := by
    intro t q hq
    have hq : q ∈ pauliQubits ⟨2, 1, 0⟩ ++ [] := hq
    rw [hq1] at hq
    simpa using hq
  have hC : CircuitOf (doubleLines (-1)) D0 1 := by
    refine ⟨hb, hok, ?_⟩
    intro l hl
    simp only [doubleLines, List.mem_singleton] at hl
    subst hl
    exact hqs 0
  have hth : ∀ t : ℝ, KeysGiven (doubleLines (-1)) (fun k => if k = "a" then some t else none) := by
    intro t l hl k hk
    simp only [doubleLines, List.mem_singleton] at hl
    subst hl
    cases hk
    exact ⟨t, rfl⟩
  have hpl : ∀ l ∈ doubleLines (-1), Line.Plain l := by
    intro l hl
    simp only [doubleLines, List.mem_singleton] at hl
    subst hl
    exact ⟨rfl, trivial⟩
  have hop : ∀ ψ : U64 → ℂ, sumOperator (Op.ofTerms [⟨1, 0, 0⟩]).terms ψ = ψ := by
    intro ψ
    funext j
    simp only [sumOperator, Op.ofTerms, List.map_cons, List.map_nil, List.sum_cons, List.sum_nil, add_zero, pauliOperator_eq]
    unfold PauliAct pauliAct pauliExp
    simp [popcount]
  have hop' : ∀ ψ : U64 → ℂ, onState (2 ^ 1) (sumOperator (Op.ofTerms [⟨1, 0, 0⟩]).terms) ψ = ψ := by
    intro ψ
    funext j
    unfold onState
    rw [hop]
    split <;> rfl
  have hnorm : ∀ (t : ℝ) (ψ : U64 → ℂ), normSq (2 ^ 1) (runLines 1 (fun k => if k = "a" then some t else none) (doubleLines (-1)) ψ) =
      normSq (2 ^ 1) ψ := fun t ψ => norm_gate (d := (RotDesc.pauli ⟨2, 1, 0⟩ (-1) [] []).at t)
    (g := .pauliRot ⟨⟨2, 1, 0⟩, ⟨1, 0, 0⟩⟩ (-1 * t)) trivial (show ((2 : ℂ)).im = 0 by simp) rfl (n := 1) (by norm_num) (hqs t) ψ
  have hneg : ∀ ψ : U64 → ℂ, onState (2 ^ 1) (operatorOf ((RotDesc.pauli ⟨2, 1, 0⟩ (-1) [] []).at (-Real.pi / -1))) ψ =
      onState (2 ^ 1) (fun φ j => - φ j) ψ := by
    intro ψ
    funext j
    unfold onState
    split
    · show applyMat (pauliQubits ⟨2, 1, 0⟩) (fun r s => Complex.cos (((-1 * (-Real.pi / -1) : ℝ) : ℂ) * 2 / 2) * matOne r s -
        Complex.I * Complex.sin (((-1 * (-Real.pi / -1) : ℝ) : ℂ) * 2 / 2) * pauliMat ⟨2, 1, 0⟩ r s) [] ψ j = _
      have e : (((-1 * (-Real.pi / -1) : ℝ) : ℂ) * 2 / 2) = -(Real.pi : ℂ) := by push_cast; ring
      rw [e, Complex.cos_neg, Complex.sin_neg, Complex.cos_pi, Complex.sin_pi, hq1, applyMat_one, if_pos (by intro c hc; cases hc)]
      simp only [neg_zero, mul_zero, zero_mul, sub_zero]
      cases hj : j.getLsbD 0 with
      | true =>
        have : setBit j 0 true = j := by rw [← hj]; exact setBit_self _ (by norm_num)
        simp [matOne, this]
      | false =>
        have : setBit j 0 false = j := by rw [← hj]; exact setBit_self _ (by norm_num)
        simp [matOne, this]
    · rfl
  refine ⟨_, D, rfl, rfl, hb, fun L hL eps t rnd junk r => ⟨?_, ?_⟩⟩
  · set ψ0 : U64 → ℂ := fun j => if InState (2 ^ 1) j then (if j = 0 then (1 : ℂ) else 0) else junk j with hψ0
    set θ : String → Option ℝ := fun k => if k = "a" then some t else none with hθ
    have hz0 : ∀ j : U64, j.toNat < 2 ^ 1 → ψ0 j = basisState 0 j := fun j hj => if_pos hj
    set φ := runLines 1 θ (doubleLines (-1)) ψ0 with hφ
    have hin : Spec.inner (2 ^ 1) φ (onState (2 ^ 1) (fun φ j => - φ j) φ) = -1 := by
      have h1 : Spec.inner (2 ^ 1) φ (onState (2 ^ 1) (fun φ j => - φ j) φ) = - Spec.inner (2 ^ 1) φ φ := by
        rw [inner_congr (by norm_num) (fun _ _ => rfl) (fun j hj => show onState (2 ^ 1) (fun φ j => - φ j) φ j = - φ j from if_pos hj)]
        unfold Spec.inner
        rw [← Finset.sum_neg_distrib]
        exact Finset.sum_congr rfl fun j _ => mul_neg _ _
      rw [h1, inner_self, hnorm, ← inner_self, inner_congr (by norm_num) hz0 hz0, inner_basisState _ (by norm_num)]
    have hstep := fun s s' f => tgrad_rot_scale (r := .pauli ⟨2, 1, 0⟩ (-1) [] []) (p := .pauli ⟨⟨2, 1, 0⟩, ⟨1, 0, 0⟩⟩ (-1)) rfl (eps := eps) (sc := -1)
      (tag := .Unknown)
      (by show checkScale (-1 * 1) = _
          unfold checkScale
          rw [mul_one, if_neg (by unfold dblEpsilon; norm_num)]) hL (n := 1) (by norm_num) (hqs 0)
      (θ := θ) (key := "a") (t := t) rfl s s' f
    have hgood : GoodCircuit D := fun g hg => by
      rw [List.mem_singleton.1 hg]
      exact .inr rfl
    have hrun : ∀ ψ f, D.RunsPlain L 1 rnd θ ψ0 ψ f ↔ ψ = φ ∧ f = none := fun ψ f => by
      rw [circuit_runsPlain hgood]
      exact C38_operators hC hL (by norm_num) (hth t) hpl ψ0 rnd ψ f
    have hfill := fill_runs (show 2 ^ 1 ≤ 2 ^ 64 by norm_num) (fun i => if i = 0 then (1 : ℂ) else 0) junk
    have hf : OpFits (Op.ofTerms [⟨1, 0, 0⟩]) 1 := by
      intro p hp
      obtain rfl : p = ⟨1, 0, 0⟩ := by simpa [Op.ofTerms] using hp
      unfold PauliFits
      rw [show pauliQubits ⟨1, 0, 0⟩ = [] from by simp only [pauliQubits]; decide]
      simp
    have happ : ∀ b, (Op.ofTerms [⟨1, 0, 0⟩]).Applies (2 ^ 1) φ b ↔ b = φ := fun b => by
      rw [C26_apply _ (by norm_num) hf, hop']
    have hg : (gradAdd (fun k => if k ∈ D.plain.keySet then some 0 else none) "a" (-(-1) * (-1 : ℂ).re) : String → Option ℝ) =
        fun k => if k = "a" then some (-1) else none := by
      funext k
      unfold gradAdd
      by_cases hk : k = "a" <;> simp [hk, Circuit.keySet, hplain, hD0]
    have hloop : ∀ s' f, D.Backprops L 1 eps θ φ φ s' f ↔ s' = ⟨onState (2 ^ 1) (opOf ((PRot.pauli ⟨⟨2, 1, 0⟩, ⟨1, 0, 0⟩⟩ (-1)).inverse.fix t)) φ,
        onState (2 ^ 1) (opOf ((PRot.pauli ⟨⟨2, 1, 0⟩, ⟨1, 0, 0⟩⟩ (-1)).inverse.fix t)) φ, fun k => if k = "a" then some (-1) else none⟩ ∧
          f = none := by
      intro s' f
      unfold TCircuit.Backprops
      show SeqRun _ [0] _ _ _ ↔ _
      rw [seqRun_cons_det (show ∀ c' f, D.GradAt L 1 eps θ 0 _ c' f ↔ _ from hstep _)]
      dsimp only
      rw [hneg, hin, hg]
      constructor
      · intro h; cases h; exact ⟨rfl, rfl⟩
      · rintro ⟨rfl, rfl⟩; exact .nil _
    unfold TCircuit.Gradient
    rw [show (Op.ofTerms [⟨1, 0, 0⟩]).hermitian = true by simp [Op.ofTerms, realCoefs], if_neg (by simp)]
    dsimp only
    rw [hplain, hreq, shl1_ok (by norm_num)]
    dsimp only
    constructor
    · rintro ⟨ψz, ψ, f1, r1, r2, r3⟩
      obtain rfl : ψz = ψ0 := r1.unique hfill
      obtain ⟨rfl, rfl⟩ := (hrun _ _).1 r2
      obtain ⟨b, r4, s', f, r5, r6⟩ := r3
      obtain rfl := (happ _).1 r4
      obtain ⟨rfl, rfl⟩ := (hloop _ _).1 r5
      exact r6
    · rintro rfl
      exact ⟨ψ0, φ, none, hfill, (hrun _ _).2 ⟨rfl, rfl⟩, φ, (happ _).2 rfl, _, none, (hloop _ _).2 ⟨rfl, rfl⟩, rfl⟩
  · have hc : ∀ t : ℝ, expectationOf 1 (doubleLines (-1)) (Op.ofTerms [⟨1, 0, 0⟩]).terms (fun k => if k = "a" then some t else none) = 1 := by
      intro t
      show (Spec.inner (2 ^ 1) (runLines 1 (fun k => if k = "a" then some t else none) (doubleLines (-1)) (basisState 0)) _).re = 1
      rw [hop]
      show (Spec.inner (2 ^ 1) (runLines 1 _ (doubleLines (-1)) (basisState 0)) (runLines 1 _ (doubleLines (-1)) (basisState 0))).re = 1
      rw [inner_self, hnorm, ← inner_self, inner_basisState _ (by norm_num)]
      rfl
    simp only [hc]
    exact hasDerivAt_const _ _

/-! ## examples -/

/-- an X gate and a measurement, the inverse of the X gate behind them -/
example : ∃ C D : TCircuit, AssembledTagged C ∧ AssembledTagged D ∧ C.inverse = .ok D ∧ D.gates ≠ [] ∧ AssembledTagged (D.addCircuit (.make
    ⟨[.inl (.det (.one .X ⟨1, 0, 0⟩)), .inl (.meas ⟨⟨1, 0, 0⟩, 0, false⟩)], [none, none]⟩)) := by
  have hi : (TCircuit.make ⟨[.inl (.det (.one .X ⟨1, 0, 0⟩))], [none]⟩).inverse = .ok ⟨[.inl ⟨.det (.one .X ⟨1, 0, 0⟩), .Unknown⟩], [none]⟩ := rfl
  have hD := AssembledTagged.inverse _ _ (.made _) hi
  exact ⟨_, _, .made _, hD, hi, by simp, .joined _ _ hD (.made _)⟩

/-- an inverse circuit that meets the conditions of `C81_noise_partial` and `C81_gradient_partial` -/
example : ∃ D : TCircuit, AssembledTagged D ∧ (∀ g, Sum.inl g ∈ D.gates → g.tag = .Unknown → ∀ t, g.obj ≠ .prob t) ∧
    (∀ p key, Sum.inr (p, key) ∈ D.gates → p.tag = .Unknown → ∀ t, p.obj ≠ .prob t) ∧
    (∀ p key, Sum.inr (p, key) ∈ D.gates → p.tag = .Unknown → ∀ q c, p.obj = .rot (.pauli q c) → q.p.coef = 1) ∧ D.gates.length = 2 := by
  have hi : (TCircuit.make ⟨[.inl (.det (.one .X ⟨1, 0, 0⟩)), .inr (.rot (.pauli ⟨⟨1, 1, 0⟩, ⟨1, 0, 0⟩⟩ 2), "a")], [none, none]⟩).inverse =
    .ok ⟨[.inr (⟨.rot (.pauli ⟨⟨1, 1, 0⟩, ⟨1, 0, 0⟩⟩ (-2)), .Unknown⟩, "a"), .inl ⟨.det (.one .X ⟨1, 0, 0⟩), .Unknown⟩], [none, none]⟩ := rfl
  refine ⟨_, .inverse _ _ (.made _) hi, ?_, ?_, ?_, rfl⟩
  · intro g hg _ t e
    simp only [List.mem_cons, reduceCtorEq, Sum.inl.injEq, List.not_mem_nil, or_false, false_or] at hg
    subst hg; cases e
  · intro p key hg _ t e
    simp only [List.mem_cons, reduceCtorEq, Sum.inr.injEq, Prod.mk.injEq, List.not_mem_nil, or_false] at hg
    obtain ⟨rfl, -⟩ := hg; cases e
  · intro p key hg _ q c e
    simp only [List.mem_cons, reduceCtorEq, Sum.inr.injEq, Prod.mk.injEq, List.not_mem_nil, or_false] at hg
    obtain ⟨rfl, -⟩ := hg; cases e; rfl

/-- a random choice with alternatives 1/2, 1/2 -/
example : (⟨[1 / 2, 1 / 2], [0, 1 / 2, 1], [.one .X ⟨1, 0, 0⟩, .ident]⟩ : ProbTable UGate).dist.sum = 1 := by norm_num

/-- the inverse of a bit flip: the noise simulation with 5 shots finishes -/
example (ψ : U64 → ℂ) : ∃ (C D : TCircuit), AssembledTagged C ∧ C.inverse = .ok D ∧
    ∃ l, D.SimulatesNoise 0 1 (fun _ => 0) (fun _ => none) ψ 5 (.ok l) := by
  have hi : (TCircuit.make ⟨[.inl (.det (.one .X ⟨1, 0, 0⟩))], [none]⟩).inverse = .ok ⟨[.inl ⟨.det (.one .X ⟨1, 0, 0⟩), .Unknown⟩], [none]⟩ := rfl
  refine ⟨_, _, .made _, hi, ?_⟩
  have hC : CircuitOf [⟨.gate (.one .X 0 [] []), none⟩] ⟨[.inl (.det (.one .X ⟨1, 0, 0⟩))], [none]⟩ 1 := by
    refine ⟨rfl, ?_, ?_⟩
    · intro l hl; rw [List.mem_singleton] at hl; subst hl; trivial
    · intro l hl; rw [List.mem_singleton] at hl; subst hl
      simp [Instr.qubits, qubitsOf, targetsOf, controlsOf, ctrlList]
  obtain ⟨⟨out, ho⟩, h2⟩ := C45_paths (shots := 5) hC (Or.inl rfl) (by norm_num) (θ := fun _ => none) (by
    intro l hl k hk; rw [List.mem_singleton] at hl; subst hl; cases hk) (by
    intro l hl q c r; rw [List.mem_singleton] at hl; subst hl; simp) (by norm_num) (by norm_num) (draws := fun _ => 0) (by
    intro k hk t ht
    obtain rfl : k = 0 := by simpa using hk
    exact ⟨1, rfl, one_pos⟩) ψ
  obtain ⟨res, -, rfl, -⟩ := h2 out ho
  refine ⟨res, (C81_noise_partial (.inverse _ _ (.made _) hi) ?_ ?_ ..).2 ho⟩
  · intro g hg _ t e
    simp only [List.mem_cons, Sum.inl.injEq, List.not_mem_nil, or_false] at hg
    subst hg; cases e
  · intro p key hg _ t e
    simp at hg

end Verif.Props
