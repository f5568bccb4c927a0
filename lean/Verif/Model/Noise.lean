import Verif.Model.Circuit

/-!
# `Circuit::simulate_noise`

Model of /repo/src/circuit/circuit.cpp:495-600.  The random source is a stream `draws`: the k-th number is the value returned by the
k-th call `dist(mt)`, whatever distribution object `dist` is at that time.  The memory of the batches is flat as everywhere
(padding of the rows is not modelled).
-/

namespace Verif.Model
open Verif Verif.Spec

/-- an element of the vector `gates` (/repo/src/circuit/circuit.cpp:517): neither measurement nor probabilistic, since the lists of
probabilistic gates are flattened by their constructors -/
abbrev Alt := UGate ⊕ (PRot × String)

/-- an element of the list of a parametric probabilistic gate together with the key (/repo/src/circuit/circuit.cpp:538-545) -/
def leafAlt (key : String) : PLeaf → Alt
  | .fixed g => .inl g
  | .rot r => .inr (r, key)

/-- the vectors `probs` and `gates` (/repo/src/circuit/circuit.cpp:516-550) -/
def Item.alternatives : Item → Res (List ℝ × List Alt)
  | .inl (.prob t) => .ok (t.dist, t.gates.map .inl)
  | .inl (.meas _) => .error (.throw "Circuit::simulate_noise: Measurement gate is not supported.")
  | .inl (.det g) => .ok ([1], [.inl g])
  | .inr (.prob t, key) => .ok (t.dist, t.gates.map (leafAlt key))
  | .inr (.rot r, key) => .ok ([1], [.inr (r, key)])

/-- the precondition of `std::discrete_distribution` (/repo/src/circuit/circuit.cpp:552) -/
def WeightsOK (probs : List ℝ) : Prop := (∀ p ∈ probs, 0 ≤ p) ∧ 0 < probs.sum

/-- the inner loop of /repo/src/circuit/circuit.cpp:558-569 (`m` iterations left) for one row of `gate_used_count`; the state is the
row, `new_size` and the number of draws so far -/
def drawRow (draws : Nat → Nat) (K : Nat) : Nat → List Nat × Nat × Nat → Res (List Nat × Nat × Nat)
  | 0, s => .ok s
  | m + 1, (row, newSize, pos) =>
    let j := draws pos
    if j ≥ K then .error (.throw "Circuit::simulate_noise: discrete_distribution returned out of range index.")
    else match row[j]? with
      | none => .error (.ub "gate_used_count[i][j] out of range")
      | some c => drawRow draws K m (row.set j (c + 1), if c = 0 then newSize + 1 else newSize, pos + 1)

/-- one iteration of the outer loop of /repo/src/circuit/circuit.cpp:557-570; the rows so far, `new_size`, number of draws -/
def drawSlot (draws : Nat → Nat) (K : Nat) (scounts : List Nat) (s : List (List Nat) × Nat × Nat) (i : Nat) :
    Res (List (List Nat) × Nat × Nat) :=
  match scounts[i]? with
  | none => .error (.ub "scounts[i] out of range")
  | some m => do
    let (row, newSize, pos) ← drawRow draws K m (List.replicate K 0, s.2.1, s.2.2)
    pure (s.1 ++ [row], newSize, pos)

/-- /repo/src/circuit/circuit.cpp:554-570: `gate_used_count`, `new_size`, number of draws -/
def countDraws (draws : Nat → Nat) (K B : Nat) (scounts : List Nat) (pos : Nat) : Res (List (List Nat) × Nat × Nat) :=
  (List.range B).foldlM (drawSlot draws K scounts) ([], 0, pos)

/-- an alternative applied to a copy of the batch (/repo/src/circuit/circuit.cpp:579-585) -/
def Alt.RunsBatched (L B n : Nat) (params : String → Option ℝ) (a : Alt) (Ψ Ψ' : U64 → ℂ) (f : Option Fault) : Prop :=
  match a with
  | .inl g => ∃ c' : BContext, Gate.RunsBatched L B n (fun _ => 0) (.det g) ⟨Ψ, ⟨0, []⟩, 0⟩ c' f ∧ Ψ' = c'.psi
  | .inr (r, key) =>
    match params key with
    | none => Ψ' = Ψ ∧ f = some (.throw "map::at")
    | some θ => ∃ c' : BContext, r.RunsBatched B n (List.replicate B θ) ⟨Ψ, ⟨0, []⟩, 0⟩ c' f ∧ Ψ' = c'.psi

/-- one iteration of /repo/src/circuit/circuit.cpp:586-591; the state is the memory of `new_states`, `new_scounts`, `insert_idx`;
`set_state_vector_at` is /repo/src/state/state_vector_batched.cpp:47-64 -/
def insertState (newSize n : Nat) (tmp : U64 → ℂ) (used : List (List Nat)) (i : Nat) (t : (U64 → ℂ) × List Nat × Nat) (j : Nat) :
    Res ((U64 → ℂ) × List Nat × Nat) :=
  match used[j]? with
  | none => .error (.ub "gate_used_count[j] out of range")
  | some row =>
    match row[i]? with
    | none => .error (.ub "gate_used_count[j][i] out of range")
    | some c =>
      if c = 0 then .ok t
      else if t.2.2 ≥ newSize then .error (.throw "batch_id must be smaller than batch_size")
      else if t.2.2 ≥ t.2.1.length then .error (.ub "new_scounts[insert_idx] out of range")
      else .ok (putSlot n t.2.2 (slotOf n j tmp) t.1, t.2.1.set t.2.2 c, t.2.2 + 1)

/-- `states`, `scounts` and the number of draws -/
structure NoiseState where
  size : Nat
  psi : U64 → ℂ
  counts : List Nat
  pos : Nat

/-- one iteration of /repo/src/circuit/circuit.cpp:577-592 -/
def InsertAlt (L n : Nat) (params : String → Option ℝ) (s : NoiseState) (newSize : Nat) (used : List (List Nat)) (alts : List Alt)
    (i : Nat) (t t' : (U64 → ℂ) × List Nat × Nat) (f : Option Fault) : Prop :=
  match alts[i]? with
  | none => t' = t ∧ f = some (.ub "gates[i] out of range")
  | some a => ∃ tmp f1, a.RunsBatched L s.size n params s.psi tmp f1 ∧
      match f1 with
      | some e => t' = t ∧ f = some e
      | none =>
        match (List.range s.size).foldlM (insertState newSize n tmp used i) t with
        | .error e => t' = t ∧ f = some e
        | .ok r => t' = r ∧ f = none

open Classical in
/-- one iteration of /repo/src/circuit/circuit.cpp:515-595; the memory of `new_states` is not initialised (`junk`).
The classical condition of the entry is not looked at. -/
def NoiseStep (L n : Nat) (draws : Nat → Nat) (params : String → Option ℝ) (g : Item) (s s' : NoiseState) (f : Option Fault) : Prop :=
  match Item.alternatives g with
  | .error e => s' = s ∧ f = some e
  | .ok (probs, alts) =>
    if WeightsOK probs then
      match countDraws draws probs.length s.size s.counts s.pos with
      | .error e => s' = s ∧ f = some e
      | .ok (used, newSize, pos) => ∃ junk t,
          SeqRun (InsertAlt L n params s newSize used alts) (List.range probs.length) (junk, List.replicate newSize 0, 0) t f ∧
          s' = ⟨newSize, t.1, t.2.1, pos⟩
    else s' = s ∧ f = some (.ub "discrete_distribution: weights must be non-negative with a positive sum")

/-- conversion of `std::uint64_t` to `std::int64_t` -/
def toInt64 (c : Nat) : Int := (BitVec.ofNat 64 c).toInt

/-- the result (/repo/src/circuit/circuit.cpp:596-600) -/
def NoiseState.result (n : Nat) (s : NoiseState) : Res (List ((U64 → ℂ) × Int)) :=
  (List.range s.size).mapM fun i =>
    match s.counts[i]? with
    | none => .error (.ub "scounts[i] out of range")
    | some c => .ok (slotOf n i s.psi, toInt64 c)

/-- /repo/src/circuit/circuit.cpp:501-601 `simulate_noise` on a state of `n` qubits -/
def Circuit.SimulatesNoise (L n : Nat) (draws : Nat → Nat) (params : String → Option ℝ) (C : Circuit) (ψ : U64 → ℂ) (shots : Nat)
    (out : Res (List ((U64 → ℂ) × Int))) : Prop :=
  match C.checkQubits n with
  | .error e => out = .error e
  | .ok _ => ∃ junk s f, SeqRun (NoiseStep L n draws params) C.gates ⟨1, putSlot n 0 ψ junk, [shots], 0⟩ s f ∧
      out = match f with
        | some e => .error e
        | none => s.result n

end Verif.Model
