import Verif.Proofs.FloatCircuit
import Verif.Proofs.FloatOutcome
import Verif.Spec.Binary64
import Verif.Props.Circuit

/-! # C67, C68, C69: gates and circuits in floating-point arithmetic

`UGate.updateF` (`Model/Float.lean`) is the update of a state whose amplitudes are pairs of numbers of a type `F` with any
operations.  C67 assumes the standard model of floating-point arithmetic (`Accurate`), C68 the laws of the sign (`SignLaws`),
C69 nothing.  The specification is the operator `operatorOf d` on exact amplitudes and the Euclidean norm.
-/

namespace Verif.Props
open Verif Verif.Spec Verif.Model Verif.Proofs
attribute [-simp] BitVec.getLsbD_eq_getElem

/-- the norm of a state of `dim` amplitudes -/
noncomputable def stateNorm (dim : Nat) (ψ : U64 → ℂ) : ℝ := √(normSq dim ψ)

section
variable {F : Type} [_root_.Zero F] [One F] [Add F] [Sub F] [Mul F] [Neg F] {lib : FloatLib F} {val : F → ℝ} {u w η Ω ε : ℝ}

/-- The conditions on a gate for the error bound `ε` of its coefficients: matrix elements and coefficients at most one, angles
at most 32 and small enough for `cos` and `sin` to be computed to `ε`, and few enough terms per sum (`terms`). -/
structure Bounded (u w η Ω ε : ℝ) (d : GateDesc) : Prop where
  args : DescOK d
  covered : Covered d
  angle : ∀ a ∈ angles d, |a| ≤ 32 ∧ (u + η) * (1 + |a|) + w ≤ ε
  small : terms d * ε ≤ 1 / 400
  range : 16 * terms d ≤ Ω

/-! ## C67 -/

/-- **C67, one gate.** In floating-point arithmetic the update by any gate has, under every schedule, one outcome, no amplitude
overflows, and the outcome differs from the exact action of the gate by at most `256 terms² (ε |ψ| + η √dim)`. -/
theorem C67_gate (A : Accurate lib val u w η Ω) (hε : u + η + w ≤ ε) (h4 : ε ≤ 1 / 400) {d : GateDesc} {g : UGate}
    (hd : Bounded u w η Ω ε d) (h : d.build = .ok g) {L B n : Nat} (hf : Fits L B n) (hq : ∀ q ∈ qubitsOf d, q < n) :
    ∃ dev, g.updateF lib L B n = .ok dev ∧ ∀ m : U64 → Cx F, (∀ j, InState (B * 2 ^ n) j → ‖cval val (m j)‖ ≤ 4) →
      ∃ m', DRuns (B * 2 ^ n) dev m m' ∧ (∀ m'', DRuns (B * 2 ^ n) dev m m'' → m'' = m') ∧
        stateNorm (B * 2 ^ n) (fun j => cval val (m' j) - operatorOf d (fun j => cval val (m j)) j) ≤
          256 * terms d ^ 2 * (ε * stateNorm (B * 2 ^ n) (fun j => cval val (m j)) + η * √((B * 2 ^ n : Nat) : ℝ)) := by
  obtain ⟨dev, hdev, hr⟩ := gate_close A hε h4 hd.args hd.covered h hd.angle hf.lanes hf.qubits hf.size hq hd.small hd.range
  refine ⟨dev, hdev, fun m hm => ?_⟩
  obtain ⟨m', h1, h2⟩ := hr m hm
  exact ⟨m', h1, fun m'' h'' => DRuns.unique h'' h1, h2⟩

/-- the exact action of gates one after another -/
noncomputable def exactRun (ds : List GateDesc) (ψ : U64 → ℂ) : U64 → ℂ := ds.foldl (fun ψ d => operatorOf d ψ) ψ

/-- unitary gates keep the norm -/
theorem exactRun_norm {n : Nat} (hn : n ≤ 63) {ds : List GateDesc} {gs : List UGate}
    (hb : List.Forall₂ (fun d g => GateDesc.build d = .ok g) ds gs)
    (hd : ∀ d ∈ ds, DescOK d ∧ UnitaryDesc d ∧ ∀ q ∈ qubitsOf d, q < n) (ψ : U64 → ℂ) :
    stateNorm (2 ^ n) (exactRun ds ψ) = stateNorm (2 ^ n) ψ := by
  rw [stateNorm, stateNorm, sqrt_normSq hn, sqrt_normSq hn]
  induction hb generalizing ψ with
  | nil => rfl
  | @cons d g ds gs hdg _ ih =>
    obtain ⟨a, b, c⟩ := hd d List.mem_cons_self
    have := ih (fun d h => hd d (List.mem_cons_of_mem _ h)) (operatorOf d ψ)
    rw [show exactRun (d :: ds) ψ = exactRun ds (operatorOf d ψ) from rfl, this]
    exact vec_operator_norm a b hdg hn c ψ

/-- **C67, circuits.** The error of a circuit of `k` unitary gates on a state of norm at most one grows at most linearly in `k`:
it is at most `k E` with `E = 256 K² (2 ε + η √dim)`, `K` the greatest number of terms, as long as `k E ≤ 1`. -/
theorem C67_circuit (A : Accurate lib val u w η Ω) (hε : u + η + w ≤ ε) (h4 : ε ≤ 1 / 400) {ds : List GateDesc} {gs : List UGate}
    (hb : List.Forall₂ (fun d g => GateDesc.build d = .ok g) ds gs) (hd : ∀ d ∈ ds, Bounded u w η Ω ε d)
    (hu : ∀ d ∈ ds, UnitaryDesc d) {L n : Nat} (hf : Fits L 1 n) (hq : ∀ d ∈ ds, ∀ q ∈ qubitsOf d, q < n) {K : ℝ}
    (hK : ∀ d ∈ ds, terms d ≤ K) (hKε : K * ε ≤ 1 / 400) (hKΩ : 16 * K ≤ Ω) {E : ℝ}
    (hE : E = 256 * K ^ 2 * (2 * ε + η * √((2 ^ n : Nat) : ℝ))) (hk : ds.length * E ≤ 1) (m : U64 → Cx F)
    (hm : stateNorm (2 ^ n) (fun j => cval val (m j)) ≤ 1) :
    ∃ m', GatesRunF lib L n gs m m' ∧ (∀ m'', GatesRunF lib L n gs m m'' → m'' = m') ∧
      stateNorm (2 ^ n) (fun j => cval val (m' j) - exactRun ds (fun j => cval val (m j)) j) ≤ ds.length * E := by
  have hlen : ds.length = gs.length := hb.length_eq
  have hn := hf.qubits
  rw [hlen] at hk ⊢
  obtain ⟨m', h1, h2⟩ := gates_close A hε h4 hf.lanes hf.qubits hb hKε hKΩ
    (fun d h => ⟨(hd d h).args, (hd d h).covered, hu d h, hK d h, (hd d h).angle, hq d h⟩) hE m (φ := fun j => cval val (m j)) (e := 0)
    le_rfl (by simp) (by rw [← sqrt_normSq (by omega)]; exact hm) (by rw [zero_add]; exact hk)
  refine ⟨m', h1, fun m'' h'' => gatesRunF_unique h'' h1, ?_⟩
  rw [zero_add] at h2
  rw [stateNorm, sqrt_normSq (by omega), vec_sub]
  exact h2

/-- **C67, norms.** The norm of a state of norm one stays within `k E` of one. -/
theorem C67_norm (A : Accurate lib val u w η Ω) (hε : u + η + w ≤ ε) (h4 : ε ≤ 1 / 400) {ds : List GateDesc} {gs : List UGate}
    (hb : List.Forall₂ (fun d g => GateDesc.build d = .ok g) ds gs) (hd : ∀ d ∈ ds, Bounded u w η Ω ε d)
    (hu : ∀ d ∈ ds, UnitaryDesc d) {L n : Nat} (hf : Fits L 1 n) (hq : ∀ d ∈ ds, ∀ q ∈ qubitsOf d, q < n) {K : ℝ}
    (hK : ∀ d ∈ ds, terms d ≤ K) (hKε : K * ε ≤ 1 / 400) (hKΩ : 16 * K ≤ Ω) {E : ℝ}
    (hE : E = 256 * K ^ 2 * (2 * ε + η * √((2 ^ n : Nat) : ℝ))) (hk : ds.length * E ≤ 1) (m m' : U64 → Cx F)
    (hm : stateNorm (2 ^ n) (fun j => cval val (m j)) = 1) (hr : GatesRunF lib L n gs m m') :
    |stateNorm (2 ^ n) (fun j => cval val (m' j)) - 1| ≤ ds.length * E := by
  have hn := hf.qubits
  obtain ⟨m₁, h1, -, h2⟩ := C67_circuit A hε h4 hb hd hu hf hq hK hKε hKΩ hE hk m hm.le
  cases gatesRunF_unique hr h1
  have h3 : stateNorm (2 ^ n) (exactRun ds (fun j => cval val (m j))) = 1 := by
    rw [exactRun_norm (by omega) hb (fun d h => ⟨(hd d h).args, hu d h, hq d h⟩), hm]
  rw [stateNorm, sqrt_normSq (by omega), vec_sub] at h2
  rw [stateNorm, sqrt_normSq (by omega)] at h3 ⊢
  rw [← h3]
  exact (abs_norm_sub_norm_le _ _).trans h2

end

/-! ## C68 -/

section
variable {F : Type} [_root_.Zero F] [One F] [Add F] [Sub F] [Mul F] [Neg F]

/-- **C68, one gate.** The kernels for vector registers of `L` and of `L'` numbers (`0`: without) give bit for bit the same amplitudes. -/
theorem C68_gate (H : SignLaws F) (lib : FloatLib F) {d : GateDesc} {g : UGate} (hd : DescOK d) (h : d.build = .ok g)
    {L L' B n : Nat} (hf : Fits L B n) (hf' : Fits L' B n) (hq : ∀ q ∈ qubitsOf d, q < n) :
    ∃ dev dev', g.updateF lib L B n = .ok dev ∧ g.updateF lib L' B n = .ok dev' ∧
      ∀ m : U64 → Cx F, ∃ m', DRuns (B * 2 ^ n) dev m m' ∧ DRuns (B * 2 ^ n) dev' m m' := by
  obtain ⟨hv, -, hsq⟩ := build_valid hd h
  obtain ⟨ht, hc⟩ := build_bounds hsq hq
  obtain ⟨dev, hdev, hr⟩ := updateF_total (F := F) (lib := lib) hv hf.lanes hf.qubits hf.size ht hc
  obtain ⟨dev', hdev', hs⟩ := updateF_lanes H lib hv hf.lanes hf'.lanes hf.size hdev
  refine ⟨dev, dev', hdev, hdev', fun m => ?_⟩
  obtain ⟨m', hm'⟩ := hr m
  exact ⟨m', hm', (hs _ _).1 hm'⟩

theorem gates_total (lib : FloatLib F) {ds : List GateDesc} {gs : List UGate}
    (hb : List.Forall₂ (fun d g => GateDesc.build d = .ok g) ds gs) (hd : ∀ d ∈ ds, DescOK d) {L n : Nat} (hf : Fits L 1 n)
    (hq : ∀ d ∈ ds, ∀ q ∈ qubitsOf d, q < n) (m : U64 → Cx F) : ∃ m', GatesRunF lib L n gs m m' := by
  induction hb generalizing m with
  | nil => exact ⟨m, rfl⟩
  | @cons d g ds gs hdg _ ih =>
    have hok := hd d List.mem_cons_self
    obtain ⟨hv, -, hsq⟩ := build_valid hok hdg
    obtain ⟨ht, hc⟩ := build_bounds hsq (hq d List.mem_cons_self)
    obtain ⟨dev, hdev, hr⟩ := updateF_total (F := F) (lib := lib) hv hf.lanes hf.qubits hf.size ht hc
    obtain ⟨m₁, h1⟩ := hr m
    obtain ⟨m', h'⟩ := ih (fun d h => hd d (List.mem_cons_of_mem _ h)) (fun d h => hq d (List.mem_cons_of_mem _ h)) m₁
    exact ⟨m', dev, m₁, hdev, h1, h'⟩

/-- **C68, circuits.** -/
theorem C68_circuit (H : SignLaws F) (lib : FloatLib F) {ds : List GateDesc} {gs : List UGate}
    (hb : List.Forall₂ (fun d g => GateDesc.build d = .ok g) ds gs) (hd : ∀ d ∈ ds, DescOK d) {L L' n : Nat} (hf : Fits L 1 n)
    (hf' : Fits L' 1 n) (hq : ∀ d ∈ ds, ∀ q ∈ qubitsOf d, q < n) (m : U64 → Cx F) :
    ∃ m', GatesRunF lib L n gs m m' ∧ GatesRunF lib L' n gs m m' := by
  obtain ⟨m', h⟩ := gates_total lib hb hd hf hq m
  have hn := hf.qubits
  refine ⟨m', h, gatesRunF_lanes H lib hf.lanes hf'.lanes (by omega) ?_ h⟩
  intro g hg
  obtain ⟨i, hi, rfl⟩ := List.mem_iff_getElem.1 hg
  have hl := hb.length_eq
  have hi' : i < ds.length := by omega
  exact (build_valid (hd _ (List.getElem_mem hi')) (hb.get hi' hi)).1

/-! ## C69 -/

/-- **C69, one gate.** In any arithmetic whatever (rounding, overflow and not-a-number included) an update ends, under every
schedule, with the same amplitudes bit for bit. -/
theorem C69_gate (lib : FloatLib F) {d : GateDesc} {g : UGate} (hd : DescOK d) (h : d.build = .ok g) {L B n : Nat}
    (hf : Fits L B n) (hq : ∀ q ∈ qubitsOf d, q < n) :
    ∃ dev, g.updateF lib L B n = .ok dev ∧ ∀ m : U64 → Cx F, ∃ m', DRuns (B * 2 ^ n) dev m m' ∧
      ∀ m'', DRuns (B * 2 ^ n) dev m m'' → m'' = m' := by
  obtain ⟨hv, -, hsq⟩ := build_valid hd h
  obtain ⟨ht, hc⟩ := build_bounds hsq hq
  obtain ⟨dev, hdev, hr⟩ := updateF_total (F := F) (lib := lib) hv hf.lanes hf.qubits hf.size ht hc
  refine ⟨dev, hdev, fun m => ?_⟩
  obtain ⟨m', hm'⟩ := hr m
  exact ⟨m', hm', fun m'' h'' => DRuns.unique h'' hm'⟩

/-- **C69, circuits.** -/
theorem C69_circuit (lib : FloatLib F) {ds : List GateDesc} {gs : List UGate}
    (hb : List.Forall₂ (fun d g => GateDesc.build d = .ok g) ds gs) (hd : ∀ d ∈ ds, DescOK d) {L n : Nat} (hf : Fits L 1 n)
    (hq : ∀ d ∈ ds, ∀ q ∈ qubitsOf d, q < n) (m : U64 → Cx F) :
    ∃ m', GatesRunF lib L n gs m m' ∧ ∀ m'', GatesRunF lib L n gs m m'' → m'' = m' := by
  obtain ⟨m', h⟩ := gates_total lib hb hd hf hq m
  exact ⟨m', h, fun m'' h'' => gatesRunF_unique h'' h⟩

end

/-! ## examples: a circuit in the arithmetic of 53-bit significands -/

/-- a Hadamard gate, a rotation and a controlled X gate -/
noncomputable def sampleGates : List GateDesc := [.one .H 0 [] [], .one (.RX 1) 1 [] [], .one .X 1 [0] []]

theorem sampleGates_built : ∃ gs, List.Forall₂ (fun d g => GateDesc.build d = .ok g) sampleGates gs := by
  obtain ⟨g1, h1⟩ := build_one .H (q := 0) (cs := []) (vs := []) (by simp) (by simp) (by simp) (by simp) rfl (by simp [effectiveValues])
  obtain ⟨g2, h2⟩ := build_one (.RX 1) (q := 1) (cs := []) (vs := []) (by simp) (by simp) (by simp) (by simp) rfl
    (by simp [effectiveValues])
  obtain ⟨g3, h3⟩ := build_one .X (q := 1) (cs := [0]) (vs := []) (by simp) (by simp) (by simp) (by simp) (by simp [effectiveValues])
    (by simp [effectiveValues])
  exact ⟨[g1, g2, g3], .cons h1 (.cons h2 (.cons h3 .nil))⟩

theorem sampleGates_facts : ∀ d ∈ sampleGates, Bounded (2⁻¹ ^ 53) (2⁻¹ ^ 53) 0 64 (2⁻¹ ^ 50) d ∧ UnitaryDesc d ∧ terms d ≤ 1 ∧
    ∀ q ∈ qubitsOf d, q < 2 := by
  intro d hd
  simp only [sampleGates, List.mem_cons, List.not_mem_nil, or_false] at hd
  rcases hd with rfl | rfl | rfl <;>
  · refine ⟨⟨trivial, trivial, ?_, ?_, ?_⟩, ?_, ?_, ?_⟩ <;>
      simp [angles, angles1, terms, UnitaryDesc, qubitsOf, targetsOf, controlsOf, ctrlList, effectiveValues] <;> norm_num

/-- The sample circuit on a state of norm one: after the three gates the error is at most `3 * 512 * 2⁻⁵⁰ < 2⁻³⁹`. -/
example : ∃ gs, List.Forall₂ (fun d g => GateDesc.build d = .ok g) sampleGates gs ∧ ∀ m : U64 → Cx Bin,
    stateNorm (2 ^ 2) (fun j => cval Bin.val (m j)) = 1 → ∃ m', GatesRunF Bin.lib 8 2 gs m m' ∧ GatesRunF Bin.lib 0 2 gs m m' ∧
      stateNorm (2 ^ 2) (fun j => cval Bin.val (m' j) - exactRun sampleGates (fun j => cval Bin.val (m j)) j) ≤ 2⁻¹ ^ 39 ∧
      |stateNorm (2 ^ 2) (fun j => cval Bin.val (m' j)) - 1| ≤ 2⁻¹ ^ 39 := by
  obtain ⟨gs, hb⟩ := sampleGates_built
  refine ⟨gs, hb, fun m hm => ?_⟩
  have hf : Fits 8 1 2 := ⟨Or.inr ⟨3, by norm_num, by norm_num⟩, by norm_num, by norm_num⟩
  have hf0 : Fits 0 1 2 := ⟨Or.inl rfl, by norm_num, by norm_num⟩
  have F := sampleGates_facts
  have hl : sampleGates.length = 3 := rfl
  obtain ⟨m', h1, -, h2⟩ := C67_circuit (Bin.accurate le_rfl) (ε := 2⁻¹ ^ 50) (by norm_num) (by norm_num) hb (fun d h => (F d h).1)
    (fun d h => (F d h).2.1) hf (fun d h => (F d h).2.2.2) (K := 1) (fun d h => (F d h).2.2.1) (by norm_num) (by norm_num) rfl
    (by rw [hl]; norm_num) m hm.le
  have h3 := C67_norm (Bin.accurate le_rfl) (ε := 2⁻¹ ^ 50) (by norm_num) (by norm_num) hb (fun d h => (F d h).1)
    (fun d h => (F d h).2.1) hf (fun d h => (F d h).2.2.2) (K := 1) (fun d h => (F d h).2.2.1) (by norm_num) (by norm_num) rfl
    (by rw [hl]; norm_num) m m' hm h1
  obtain ⟨m₁, a, b⟩ := C68_circuit Bin.signLaws Bin.lib hb (fun d h => (F d h).1.args) hf hf0 (fun d h => (F d h).2.2.2) m
  have e : m₁ = m' := gatesRunF_unique a h1
  rw [e] at b
  refine ⟨m', h1, b, h2.trans ?_, h3.trans ?_⟩ <;> · rw [hl]; norm_num

/-- a matrix on three qubits -/
example : Bounded (2⁻¹ ^ 53) (2⁻¹ ^ 53) 0 128 (2⁻¹ ^ 50) (.dense [4, 1, 2] ⟨8, 8, fun i j => if i = 7 - j then 1 else 0⟩ [0] [] true) ∧
    ∃ g, (GateDesc.dense [4, 1, 2] ⟨8, 8, fun i j => if i = 7 - j then 1 else 0⟩ [0] [] true).build = .ok g := by
  refine ⟨⟨trivial, ?_, ?_, ?_, ?_⟩, ?_⟩
  · intro i j _ _
    show ‖(if i = 7 - j then 1 else 0 : ℂ)‖ ≤ 1
    split <;> simp
  · simp [angles]
  · simp only [terms]; norm_num
  · simp only [terms]; norm_num
  · obtain ⟨o, ho⟩ := operands_exist (ts := [4, 1, 2]) (cs := [0]) (vs := []) (by simp) (by simp) (by simp)
      (by simp) (by simp) (by simp [effectiveValues]) (by simp [effectiveValues])
    exact build_dense (u := true) ho (by simp) rfl rfl

end Verif.Props
