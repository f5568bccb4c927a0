import Verif.Proofs.SpaceMerge
import Verif.Props.Space
import Verif.Props.Optimize

/-! # C94: merged gates and optimised circuits run where their parts ran

With the space of the states as template argument this holds (`C94_merge`, `C94_optimize`, `C94_outcome`).  From Python the argument cannot be
chosen: `optimize` always makes gates for `Host`, `merge_gate` for the default space (`C94_python_counterexample`,
`C94_python_merge_counterexample`). -/

namespace Verif.Props
open Verif Verif.Spec Verif.Model Verif.Proofs
attribute [-simp] BitVec.getLsbD_eq_getElem

/-- a gate that states of space `s` accept -/
def AcceptedOn (s : Space) (g : SUGate) : Prop := MatrixGate g → g.space = s

theorem acceptedOn_iff {s : Space} {g : SUGate} : AcceptedOn s g ↔ UHome s g := by
  unfold AcceptedOn UHome
  rw [matrixGate_iff]

/-- **C94, merging.** `merge_gate<Prec, s>` does with objects of any spaces what it does with one space, and returns one of its arguments or a gate
made for `s`; so gates accepted on `s` give a gate accepted on `s`. -/
theorem C94_merge (s : Space) (a b : SUGate) :
    (∀ e, mergeGateS s a b = .error e ↔ mergeGate a.gate b.gate = .error e) ∧
    (∀ u φ, mergeGate a.gate b.gate = .ok (u, φ) ↔ ∃ g, mergeGateS s a b = .ok (g, φ) ∧ g.gate = u) ∧
    ∀ g φ, mergeGateS s a b = .ok (g, φ) → (g = a ∨ g = b ∨ g.space = s) ∧ (AcceptedOn s a → AcceptedOn s b → AcceptedOn s g) := by
  have hd := mergeGateS_down s a b
  refine ⟨fun e => ?_, fun u φ => ?_, fun g φ h => ⟨mergeGateS_home h, fun ha hb => ?_⟩⟩
  · rw [← hd]
    cases mergeGateS s a b with
    | error e' => exact ⟨fun h => (by cases h; rfl), fun h => (by cases h; rfl)⟩
    | ok r => exact ⟨fun h => (by cases h), fun h => (by cases h)⟩
  · rw [← hd]
    cases mergeGateS s a b with
    | error e' => exact ⟨fun h => (by cases h), fun ⟨g, h, _⟩ => (by cases h)⟩
    | ok r =>
      obtain ⟨g, φ'⟩ := r
      exact ⟨fun h => (by cases h; exact ⟨g, rfl, rfl⟩), fun ⟨g', h, e⟩ => (by cases h; rw [← e]; rfl)⟩
  · rcases mergeGateS_home h with rfl | rfl | e
    · exact ha
    · exact hb
    · exact fun _ => e

/-- **C94, effect of merging.** Two described gates (no permutation gates, no tiny sums of `RZ` angles) made for `s`: the merged gate is accepted on
`s`, where a state vector or a batch undergoes the two gates up to the returned phase. -/
theorem C94_merge_runs {s : Space} {d1 d2 : GateDesc} {a b : SUGate} (hd1 : DescOK d1) (hd2 : DescOK d2) (h1 : SUGate.build s d1 = .ok a)
    (h2 : SUGate.build s d2 = .ok b) (hp1 : NoPermutation d1) (hp2 : NoPermutation d2) (hrz : ∀ x, RzSum d1 d2 x → x = 0 ∨ 2e-12 ≤ |x|)
    {L B n : Nat} (hf : Fits L B n) (hq1 : ∀ q ∈ qubitsOf d1, q < n) (hq2 : ∀ q ∈ qubitsOf d2, q < n) :
    ∃ g φ, mergeGateS s a b = .ok (g, φ) ∧ SameEffect a.gate b.gate g.gate L B n (fun _ => cis φ) ∧
      (∀ x ∈ [a, b, g], AcceptedOn s x ∧ ∀ c c' f, x.RunsOn s L n c c' f ↔ x.gate.RunsOn L n c c' f) := by
  obtain ⟨u1, e1, k1⟩ := bind_ok h1
  obtain ⟨u2, e2, k2⟩ := bind_ok h2
  cases k1
  cases k2
  obtain ⟨u, φ, hm, he⟩ := C41_exact hd1 hd2 e1 e2 hp1 hp2 hrz hf hq1 hq2
  obtain ⟨-, hM, hA⟩ := C94_merge s ⟨u1, s⟩ ⟨u2, s⟩
  obtain ⟨g, hg, rfl⟩ := (hM u φ).1 hm
  have ha : AcceptedOn s ⟨u1, s⟩ := fun _ => rfl
  have hb : AcceptedOn s ⟨u2, s⟩ := fun _ => rfl
  have hG := (hA g φ hg).2 ha hb
  have run : ∀ x : SUGate, AcceptedOn s x → ∀ c c' f, x.RunsOn s L n c c' f ↔ x.gate.RunsOn L n c c' f :=
    fun x hx c c' f => (uhome_runs (acceptedOn_iff.1 hx)).1
  refine ⟨g, φ, hg, he, fun x hx => ?_⟩
  simp only [List.mem_cons, List.not_mem_nil, or_false] at hx
  rcases hx with rfl | rfl | rfl
  · exact ⟨ha, run _ ha⟩
  · exact ⟨hb, run _ hb⟩
  · exact ⟨hG, run _ hG⟩

/-- **C94, optimising.** `optimize<s>` does with objects of any spaces what it does with one space; every entry of the new circuit is an entry of the
old one or a gate made for `s`; so a circuit whose matrix gates were made for `s` stays one. -/
theorem C94_optimize (s : Space) (C : SCircuit) (mb : Nat) :
    (∀ e, C.optimize s mb = .error e ↔ C.plain.optimize mb = .error e) ∧
    (∀ D log, C.plain.optimize mb = .ok (D, log) ↔
      ∃ C' log', C.optimize s mb = .ok (C', log') ∧ C'.plain = D ∧ log'.map (fun p => (p.1.gate, p.2.gate)) = log) ∧
    ∀ C' log', C.optimize s mb = .ok (C', log') →
      (∀ e ∈ C'.gates, e ∈ C.gates ∨ ∃ g : SUGate, e = .inl (.det g) ∧ g.space = s) ∧ (MadeFor s C.gates → MadeFor s C'.gates) := by
  have hd := optimize_down s C mb
  refine ⟨fun e => ?_, fun D log => ?_, fun C' log' h => ⟨optimize_origin h, fun hm e he g hg hx => ?_⟩⟩
  · rw [hd]
    cases C.optimize s mb with
    | error e' => exact ⟨fun h => (by cases h; rfl), fun h => (by cases h; rfl)⟩
    | ok r => exact ⟨fun h => (by cases h), fun h => (by cases h)⟩
  · rw [hd]
    cases C.optimize s mb with
    | error e' => exact ⟨fun h => (by cases h), fun ⟨_, _, h, _⟩ => (by cases h)⟩
    | ok r =>
      obtain ⟨C', log'⟩ := r
      exact ⟨fun h => (by cases h; exact ⟨C', log', rfl, rfl, rfl⟩), fun ⟨_, _, h, e1, e2⟩ => (by cases h; rw [← e1, ← e2]; rfl)⟩
  · rcases optimize_origin h e he with he | ⟨g', rfl, hs⟩
    · exact hm e he g hg hx
    · rw [List.mem_singleton.1 hg]; exact hs

/-- `SameOutcome` for states of space `s` -/
def SameOutcomeOn (s : Space) (C C' : SCircuit) (L n : Nat) (rnd : Nat → ℝ) (θ : String → Option ℝ) (ψ : U64 → ℂ) (reg : List Bool) : Prop :=
  ∃ (ε : ℝ) (ψ1 ψ2 : U64 → ℂ) (reg' : List Bool) (draws : Nat), |ε| ≤ 1e-12 ∧ (∀ j, j.toNat < 2 ^ n → ψ1 j = cis ε * ψ2 j) ∧
    (∀ c f, C.RunsOn s L n rnd θ ψ reg c f ↔ c = ⟨ψ1, reg', draws⟩ ∧ f = none) ∧
    (∀ c f, C'.RunsOn s L n rnd θ ψ reg c f ↔ c = ⟨ψ2, reg', draws⟩ ∧ f = none)

/-- **C94, effect of optimising.** Where C40 holds (no cancelling gates), a circuit whose matrix gates were made for `s` and the result of `optimize<s>`
have the same outcome on states of space `s`. -/
theorem C94_outcome {s : Space} {ls : List Line} {C : SCircuit} {L n : Nat} (h : CircuitOf ls C.plain n) (hs : MadeFor s C.gates)
    (hL : LanesOK L) (hn : n < 64) (ht : Tangible ls) (hu : UnitaryIfMeasured ls)
    (hf : ∀ d, (⟨.gate d, none⟩ : Line) ∈ ls → NeverCancels d)
    (hrz : ∀ a b, IsRzAngle ls a → IsRzAngle ls b → a + b = 0 ∨ 2e-12 ≤ |a + b|) (mb : Nat) :
    ∃ C' log, C.optimize s mb = .ok (C', log) ∧ ∀ {θ : String → Option ℝ}, KeysGiven ls θ → ∀ {ψ ψ' : U64 → ℂ} {reg reg' : List Bool}
      {ms : List Nat} {uss : List (List ℝ)}, History n θ ls ⟨ψ, reg, []⟩ uss ⟨ψ', reg', ms⟩ → ∀ {rnd : Nat → ℝ}, Draws rnd uss.flatten →
      SameOutcomeOn s C C' L n rnd θ ψ reg := by
  obtain ⟨D, log, hD, hout⟩ := C40_families_partial h hL hn ht hu hf hrz mb
  obtain ⟨-, hO, hA⟩ := C94_optimize s C mb
  obtain ⟨C', log', hC', rfl, -⟩ := (hO D log).1 hD
  have hs' := (hA C' log' hC').2 hs
  refine ⟨C', log', hC', fun hk ψ ψ' reg reg' ms uss hh rnd hr => ?_⟩
  obtain ⟨ε, ψ1, ψ2, r, m, h1, h2, h3, h4⟩ := hout hk hh hr
  exact ⟨ε, ψ1, ψ2, r, m, h1, h2, fun c f => (C83_own_space hs L n rnd _ ψ reg c f).trans (h3 c f),
    fun c f => (C83_own_space hs' L n rnd _ ψ reg c f).trans (h4 c f)⟩

/-- **C94, Python, where it works.** For circuits whose matrix gates were made for `Host` - which is the default space of builds without CUDA - the
method of the Python class is `optimize<Host>`, so the theorems above apply to states of that space. -/
theorem C94_python_partial (cuda : Bool) (C : SCircuit) (mb : Nat) : pythonOptimize cuda C mb = C.optimize .Host mb ∧
    ∀ C' log, pythonOptimize cuda C mb = .ok (C', log) → MadeFor .Host C.gates → MadeFor .Host C'.gates :=
  ⟨rfl, fun C' log h => ((C94_optimize .Host C mb).2.2 C' log h).2⟩

/-! ## two Hadamard gates -/

theorem mergeDense_shape {u v g : UGate} {φ : ℝ} (h : mergeDense u v = .ok (g, φ)) : ∃ d, g = .dense d := by
  unfold mergeDense at h
  dsimp only at h
  obtain ⟨m1, -, h⟩ := bind_ok h
  obtain ⟨e1, -, h⟩ := bind_ok h
  obtain ⟨m2, -, h⟩ := bind_ok h
  obtain ⟨e2, -, h⟩ := bind_ok h
  obtain ⟨m, -, h⟩ := bind_ok h
  obtain ⟨g', hg, h⟩ := bind_ok h
  cases h
  obtain ⟨x, -, hx⟩ := bind_ok (show (do let g ← mkDense _ m _ _ false; pure (UGate.dense g)) = .ok g from hg)
  cases hx
  exact ⟨_, rfl⟩

/-- the Hadamard gate on qubit 0 -/
abbrev had : UGate := .one .H ⟨1, 0, 0⟩

theorem merge_HH : ∃ d : DenseGate, mergeGate had had = .ok (.dense d, 0) ∧ (∀ q, UGate.uses (.dense d) q ↔ q = 0) := by
  have hv : Valid had := (build_valid (d := .one .H 0 [] []) trivial (one0_build .H)).1
  have h0 : ∀ q, UGate.uses had q ↔ q = 0 := by
    intro q
    rw [← mem_operandList, show had.operandQubitList = [0] by
      show maskToVector ((1 : U64) ||| 0) = [0]
      rw [show (1 : U64) ||| 0 = 1#64 from rfl, mask_one]]
    simp
  obtain ⟨g, hg, hm, hq⟩ := mergeDense_spec hv hv ⟨1, by norm_num, fun q h => by
    have := h.elim (h0 q).1 (h0 q).1
    omega⟩
  obtain ⟨d, rfl⟩ := mergeDense_shape hg
  refine ⟨d, ?_, fun q => ⟨fun h => (hm.qubits q h).elim (h0 q).1 (h0 q).1, fun h => hq q (.inl ((h0 q).2 h))⟩⟩
  rw [mergeGate_rest (fun p h => by cases h) (fun h => by cases h) (fun p h => by cases h) (fun h => by cases h) rfl rfl,
    if_neg (by simp)]
  rw [show runStages had had mergeStages = .ok none from rfl, ok_bind]
  exact hg

theorem optimize_HH {mb : Nat} (hmb : 1 ≤ mb) : ∃ (d : DenseGate) (log : List (UGate × UGate)), (∀ q, UGate.uses (.dense d) q ↔ q = 0) ∧
    Circuit.optimize ⟨[.inl (.det had), .inl (.det had)], [none, none]⟩ mb = .ok (⟨[.inl (.det (.dense d))], [none]⟩, log) := by
  obtain ⟨d, hm, hd⟩ := merge_HH
  refine ⟨d, [(had, had)], hd, ?_⟩
  have hop : Item.operandList (.inl (.det had)) = [0] := by
    show maskToVector ((1 : U64) ||| 0) = [0]
    rw [show (1 : U64) ||| 0 = 1#64 from rfl, mask_one]
  have hoq : had.operandQubitList = [0] := hop
  have hreq : Circuit.requiredQubits ⟨[.inl (.det had), .inl (.det had)], [none, none]⟩ = 1 := by
    show bitWidth (((0 : U64) ||| ((1 : U64) ||| 0)) ||| ((1 : U64) ||| 0)) = 1
    rfl
  have s1 : OptState.step mb ⟨[], [], 0, [], [none], []⟩ none (.inl (.det had)) = .ok ⟨[], [], 0, [had], [some 0], []⟩ := by
    unfold OptState.step
    dsimp only
    unfold OptState.mergeable OptState.waitingIndices
    rw [hop]
    rw [show ([0].mapM (elemAt [none]) : Res (List (Option Nat))) = .ok [none] from rfl, ok_bind]
    rw [show (pure (sortUnique ([none].filterMap id)) : Res (List Nat)) = .ok [] by simp [sortUnique, uniqueAdj]; rfl, ok_bind, if_pos rfl]
    unfold OptState.wait
    rw [hoq]
    rfl
  have s2 : OptState.step mb ⟨[], [], 0, [had], [some 0], []⟩ none (.inl (.det had)) =
      OptState.wait ⟨[], [], 0 + 0, [had], [some 0], [(had, had)]⟩ (.dense d) := by
    unfold OptState.step
    dsimp only
    unfold OptState.mergeable OptState.waitingIndices
    rw [hop]
    rw [show ([0].mapM (elemAt [some 0]) : Res (List (Option Nat))) = .ok [some 0] from rfl, ok_bind]
    rw [show (pure (sortUnique ([some 0].filterMap id)) : Res (List Nat)) = .ok [0] by simp [sortUnique, uniqueAdj]; rfl, ok_bind, if_neg (by simp)]
    have hs : OptState.shouldMerge ⟨[], [], 0, [had], [some 0], []⟩ mb had [0] = .ok true := by
      unfold OptState.shouldMerge OptState.newlyApplied
      rw [hop]
      rw [show ([0].filterMapM (fun q => do
        let w ← elemAt [some 0] q
        pure (if w = none then some q else none)) : Res (List Nat)) = .ok [] from rfl, ok_bind]
      rw [show ([0].mapM (elemAt [had]) : Res (List UGate)) = .ok [had] from rfl, ok_bind]
      dsimp only
      rw [show commonControls had.operands had.operands = 0 from rfl]
      simp only [List.foldl_cons, List.foldl_nil, hoq]
      rw [show sub64 (List.length [] + List.length [0]) (popcount 0) = 1 by rfl, show decide (1 ≤ mb) = true by simp [hmb], Bool.or_true]
      rfl
    rw [hs, ok_bind, if_pos rfl]
    unfold OptState.mergeAll
    rw [List.foldlM_cons]
    dsimp only
    rw [show elemAt [had] 0 = .ok had from rfl, ok_bind, hm, ok_bind]
    rfl
  have hdq : (UGate.dense d).operandQubitList = [0] := by
    have hs : ∀ q, q ∈ (UGate.dense d).operandQubitList ↔ q = 0 := fun q => mem_operandList.trans (hd q)
    have hmask : (UGate.dense d).operands.t ||| (UGate.dense d).operands.c = 1#64 := by
      apply BitVec.eq_of_getLsbD_eq
      intro i hi
      by_cases h0 : i = 0
      · subst h0
        exact (hd 0).2 rfl
      · have : ¬ ((UGate.dense d).operands.t ||| (UGate.dense d).operands.c).getLsbD i = true := fun h => h0 ((hd i).1 h)
        rw [Bool.not_eq_true] at this
        rw [this, BitVec.getLsbD_one]
        simp [h0]
    show maskToVector ((UGate.dense d).operands.t ||| (UGate.dense d).operands.c) = [0]
    rw [hmask, mask_one]
  unfold Circuit.optimize
  rw [optLoop_eq rfl, hreq]
  rw [show List.replicate 1 (none : Option Nat) = [none] from rfl]
  dsimp only [List.zip_cons_cons, List.zip_nil_left]
  rw [List.foldlM_cons, show stepPair mb ⟨[], [], 0, [], [none], []⟩ (none, .inl (.det had)) = _ from s1, ok_bind, List.foldlM_cons,
    show stepPair mb ⟨[], [], 0, [had], [some 0], []⟩ (none, .inl (.det had)) = _ from s2]
  unfold OptState.wait
  rw [hdq]
  dsimp only
  rw [show markAll [some 0] [0] (some ([had] : List UGate).length) = .ok [some 1] from rfl, ok_bind]
  rw [show (pure (⟨[], [], 0 + 0, [had] ++ [.dense d], [some 1], [(had, had)]⟩ : OptState) : Res OptState) = .ok _ from rfl, ok_bind,
    List.foldlM_nil]
  rw [show (pure (⟨[], [], 0 + 0, [had] ++ [.dense d], [some 1], [(had, had)]⟩ : OptState) : Res OptState) = .ok _ from rfl, ok_bind,
    finish_one (i := 1) (g := .dense d) rfl rfl (by norm_num)]
  rfl

/-- **C94 fails from Python**: two Hadamard gates on one qubit run on states of every space.  Optimised from Python, with or without CUDA and for
every block size but 0, they become one matrix gate that every state of a space other than `Host` refuses: `HostSerial`, and the default space of
builds with CUDA. -/
theorem C94_python_counterexample (cuda : Bool) {mb : Nat} (hmb : 1 ≤ mb) {L : Nat} (hL : LanesOK L) (rnd : Nat → ℝ) (θ : String → Option ℝ)
    (ψ : U64 → ℂ) (reg : List Bool) :
    ∃ C : SCircuit, CircuitOf [⟨.gate (.one .H 0 [] []), none⟩, ⟨.gate (.one .H 0 [] []), none⟩] C.plain 1 ∧
      (∀ s, ∃ ψ', ∀ c f, C.RunsOn s L 1 rnd θ ψ reg c f ↔ c = ⟨ψ', reg, 0⟩ ∧ f = none) ∧
      ∃ C' log, pythonOptimize cuda C mb = .ok (C', log) ∧ ∀ s, s ≠ .Host → ∀ c f, C'.RunsOn s L 1 rnd θ ψ reg c f ↔
        c = ⟨ψ, reg, 0⟩ ∧ f = some spaceFault := by
  set C : SCircuit := ⟨[.inl (.det ⟨had, .Host⟩), .inl (.det ⟨had, .Host⟩)], [none, none]⟩ with hC
  have hno : ∀ s, MadeFor s C.gates := by
    intro s e he g hg hm
    have : g = ⟨had, .Host⟩ := by
      simp only [hC, List.mem_cons, List.not_mem_nil, or_false, or_self] at he
      subst he
      exact List.mem_singleton.1 hg
    subst this
    rcases hm with ⟨d, h⟩ | ⟨d, h⟩ <;> cases h
  have hk : KeysGiven [(⟨.gate (.one .H 0 [] []), none⟩ : Line), ⟨.gate (.one .H 0 [] []), none⟩] θ := by
    intro l hl k hk
    simp only [List.mem_cons, List.not_mem_nil, or_false, or_self] at hl
    subst hl
    cases hk
  have hp : ∀ l ∈ [(⟨.gate (.one .H 0 [] []), none⟩ : Line), ⟨.gate (.one .H 0 [] []), none⟩], Line.Plain l := by
    intro l hl
    simp only [List.mem_cons, List.not_mem_nil, or_false, or_self] at hl
    subst hl
    exact ⟨rfl, trivial⟩
  refine ⟨C, two_gates .H .H, fun s => ⟨_, fun c f => (C83_own_space (hno s) L 1 rnd θ ψ reg c f).trans
    (C38_in_order (two_gates .H .H) hL (by norm_num) hk (plain_history (n := 1) hp hk ψ reg) (rnd := rnd) (by intro i hi; simp at hi) c f)⟩, ?_⟩
  obtain ⟨d, log, hd, ho⟩ := optimize_HH hmb
  obtain ⟨-, hO, hA⟩ := C94_optimize .Host C mb
  obtain ⟨C', log', hC', hpl, -⟩ := (hO _ _).1 ho
  refine ⟨C', log', hC', fun s hs c f => ?_⟩
  obtain ⟨gs, cs⟩ := C'
  obtain ⟨hgs, rfl⟩ : gs.map SItem.plain = [.inl (.det (.dense d))] ∧ cs = [none] := by
    injection hpl with h1 h2
    exact ⟨h1, h2⟩
  obtain ⟨e, rfl, he⟩ := List.map_eq_singleton_iff.1 hgs
  rcases e with (g | t | m) | ⟨p, k⟩
  · have hg : g.gate = .dense d := by
      injection he with he
      injection he
    have hsp : g.space = .Host := by
      rcases (hA _ _ hC').1 _ (List.mem_singleton.2 rfl) with h | ⟨g', h, hs'⟩
      · exfalso
        simp only [hC, List.mem_cons, List.not_mem_nil, or_false, or_self] at h
        injection h with h
        injection h with h
        rw [h] at hg
        cases hg
      · injection h with h
        injection h with h
        rw [h]; exact hs'
    have hfor : g.foreign s = true := by
      unfold SUGate.foreign
      rw [hg, hsp]
      simp [UGate.hasSpace, hs.symm]
    have hreq : Circuit.requiredQubits ⟨[.inl (.det (.dense d))], [none]⟩ ≤ 1 := by
      unfold Circuit.requiredQubits
      rw [bitWidth_le_iff]
      intro i hi
      rw [List.foldl_cons, List.foldl_nil, BitVec.getLsbD_or, zero_bit, Bool.false_or] at hi
      have : i = 0 := (hd i).1 hi
      omega
    have hchk : SCircuit.plain ⟨[.inl (.det g)], [none]⟩ = ⟨[.inl (.det (.dense d))], [none]⟩ := hpl
    have hck : Circuit.check ⟨[.inl (.det (.dense d))], [none]⟩ 1 θ = .ok () := by
      unfold Circuit.check Circuit.checkQubits
      rw [if_neg (by omega)]
      rfl
    unfold SCircuit.RunsOn
    rw [hchk, hck]
    dsimp only
    have hstep : ∀ c c' f, SCircuit.StepOn s L 1 rnd θ ⟨[.inl (.det g)], [none]⟩ 0 (c, 0) c' f ↔ c' = (c, 0) ∧ f = some spaceFault := by
      intro c c' f
      unfold SCircuit.StepOn
      show SItem.RunsOn s L 1 rnd θ (.inl (.det g)) (c, 0) c' f ↔ _
      unfold SItem.RunsOn
      rw [if_neg (by simp)]
      show (SUGate.RunsOn s L 1 g c c'.1 f ∧ c'.2 = if f = none then (0 : U64) ||| _ else (0 : U64)) ↔ _
      unfold SUGate.RunsOn
      rw [if_pos hfor]
      constructor
      · rintro ⟨⟨h1, rfl⟩, h2⟩
        exact ⟨Prod.ext h1 h2, rfl⟩
      · rintro ⟨rfl, rfl⟩
        exact ⟨⟨rfl, rfl⟩, rfl⟩
    constructor
    · rintro ⟨m, h⟩
      rw [show List.range (List.length [(.inl (.det g) : SItem)]) = [0] from rfl] at h
      cases h with
      | cons _ _ _ c1 _ _ h1 h2 => cases ((hstep _ _ _).1 h1).2
      | stop _ _ _ _ e h1 =>
        obtain ⟨h3, h4⟩ := (hstep _ _ _).1 h1
        exact ⟨congrArg Prod.fst h3, h4⟩
    · rintro ⟨rfl, rfl⟩
      exact ⟨0, .stop _ _ _ _ _ ((hstep _ _ _).2 ⟨rfl, rfl⟩)⟩
  · cases he
  · cases he
  · cases he

/-- **C94 fails from Python for `merge_gate`**: the Hadamard gate, accepted on every space, merged with itself gives a matrix gate that states of
`HostSerial` refuse. -/
theorem C94_python_merge_counterexample (cuda : Bool) (sp : Space) : ∃ g φ, pythonMerge cuda ⟨had, sp⟩ ⟨had, sp⟩ = .ok (g, φ) ∧ MatrixGate g ∧
    (∀ s, AcceptedOn s ⟨had, sp⟩) ∧ ¬ AcceptedOn .HostSerial g ∧
    ∀ L n rnd c c' f, SGate.RunsOn .HostSerial L n rnd (.det g) c c' f ↔ c' = c ∧ f = some spaceFault := by
  obtain ⟨d, hm, -⟩ := merge_HH
  obtain ⟨-, hM, hA⟩ := C94_merge (if cuda then .Default else .Host) ⟨had, sp⟩ ⟨had, sp⟩
  obtain ⟨g, hg, hgd⟩ := (hM _ _).1 hm
  have hx : MatrixGate g := .inl ⟨d, hgd⟩
  have hs : g.space ≠ .HostSerial := by
    rcases (hA g 0 hg).1 with rfl | rfl | h
    · cases hgd
    · cases hgd
    · rw [h]; cases cuda <;> decide
  refine ⟨g, 0, hg, hx, fun s h => ?_, fun h => hs (h hx), fun L n rnd => (C83_refused hx hs L 1 n rnd).1⟩
  rcases h with ⟨d, h⟩ | ⟨d, h⟩ <;> cases h

/-- non-trivial case of the hypotheses of `C94_merge_runs`: a controlled X and a Hadamard gate -/
example : ∃ a b, SUGate.build .HostSerial (.one .X 0 [1] [1]) = .ok a ∧ SUGate.build .HostSerial (.one .H 0 [] []) = .ok b ∧
    NoPermutation (.one .X 0 [1] [1]) ∧ NoPermutation (.one .H 0 [] []) ∧
    ∀ x, RzSum (.one .X 0 [1] [1]) (.one .H 0 [] []) x → x = 0 ∨ 2e-12 ≤ |x| := by
  obtain ⟨o, ho⟩ := operands_exist (ts := [0]) (cs := [1]) (vs := [1]) (by simp) (by simp) (by simp)
    (by simp) (by simp) (by simp [effectiveValues]) (by simp [effectiveValues])
  refine ⟨⟨.one .X o, .HostSerial⟩, ⟨had, .HostSerial⟩, ?_, ?_, trivial, trivial, ?_⟩
  · unfold SUGate.build
    rw [show (GateDesc.one .X 0 [1] [1]).build = .ok (.one .X o) by unfold GateDesc.build; dsimp only; rw [ho]; rfl]
    rfl
  · unfold SUGate.build
    rw [one0_build]
    rfl
  · rintro x h
    simp [RzSum, RzAngle] at h

/-- non-trivial case of the hypotheses of `C94_outcome`: two Hadamard gates, made for `HostSerial` -/
example : ∃ C : SCircuit, CircuitOf [⟨.gate (.one .H 0 [] []), none⟩, ⟨.gate (.one .H 0 [] []), none⟩] C.plain 1 ∧
    MadeFor .HostSerial C.gates ∧ NeverCancels (.one .H 0 [] []) := by
  refine ⟨⟨[.inl (.det ⟨had, .HostSerial⟩), .inl (.det ⟨had, .HostSerial⟩)], [none, none]⟩, two_gates .H .H, ?_, trivial⟩
  intro e he g hg hm
  simp only [List.mem_cons, List.not_mem_nil, or_false, or_self] at he
  subst he
  rw [List.mem_singleton.1 hg]

end Verif.Props
