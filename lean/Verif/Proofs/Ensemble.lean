import Verif.Proofs.DrawEvents
import Verif.Proofs.NoiseOffers
import Verif.Props.Circuit
import Verif.Proofs.Merge

/-! # Paths of a circuit with random choices -/

namespace Verif.Proofs
open Verif Verif.Spec Verif.Model Verif.Props MeasureTheory ProbabilityTheory
attribute [-simp] BitVec.getLsbD_eq_getElem

/-- the probabilities of a random choice add up to 1 -/
def _root_.Verif.Spec.Instr.Fair : Instr → Prop
  | .choice ps _ => ps.sum = 1
  | .pchoice ps _ _ => ps.sum = 1
  | _ => True

/-- does the instruction draw a random number to choose an alternative? -/
def _root_.Verif.Spec.Instr.random : Instr → Bool
  | .choice _ _ => true
  | .pchoice _ _ _ => true
  | _ => false

/-- the interval of the `k`-th alternative -/
noncomputable def cut (ps : List ℝ) (k : Nat) : ℝ × ℝ := ((ps.take k).sum, (ps.take (k + 1)).sum)

theorem take_sum_mono {ps : List ℝ} (h : ∀ p ∈ ps, 0 ≤ p) {a b : Nat} (hab : a ≤ b) : (ps.take a).sum ≤ (ps.take b).sum := by
  obtain ⟨c, rfl⟩ := Nat.exists_eq_add_of_le hab
  rw [List.take_add, List.sum_append]
  have : 0 ≤ ((ps.drop a).take c).sum := List.sum_nonneg fun x hx => h x (List.mem_of_mem_drop (List.mem_of_mem_take hx))
  linarith

theorem cut_inside {ps : List ℝ} (h : ∀ p ∈ ps, 0 ≤ p) (hs : ps.sum = 1) (k : Nat) :
    0 ≤ (cut ps k).1 ∧ (cut ps k).1 ≤ (cut ps k).2 ∧ (cut ps k).2 ≤ 1 := by
  refine ⟨List.sum_nonneg fun x hx => h x (List.mem_of_mem_take hx), take_sum_mono h (Nat.le_succ k), ?_⟩
  have := take_sum_mono h (Nat.le_max_left (k + 1) ps.length)
  rwa [List.take_of_length_le (Nat.le_max_right (k + 1) ps.length), hs] at this

theorem cut_length {ps : List ℝ} {k : Nat} (hk : k < ps.length) : (cut ps k).2 - (cut ps k).1 = ps[k] := by
  unfold cut
  rw [List.take_add_one, List.getElem?_eq_getElem hk, List.sum_append]
  simp

theorem cut_exists {ps : List ℝ} (h : ∀ p ∈ ps, 0 ≤ p) (hs : ps.sum = 1) {u : ℝ} (h0 : 0 ≤ u) (h1 : u < 1) :
    ∃ k, k < ps.length ∧ (cut ps k).1 ≤ u ∧ u < (cut ps k).2 ∧ ∀ k', (cut ps k').1 ≤ u → u < (cut ps k').2 → k' = k := by
  have hex : ∃ k, u < (ps.take (k + 1)).sum := ⟨ps.length, by rw [List.take_of_length_le (by omega), hs]; exact h1⟩
  classical
  refine ⟨Nat.find hex, ?_, ?_, Nat.find_spec hex, fun k' ha hb => ?_⟩
  · by_contra hlt
    rcases hl : ps.length with _ | m
    · rw [List.length_eq_zero_iff] at hl; subst hl; simp at hs
    · have := Nat.find_min hex (m := m) (by omega)
      rw [← hl, List.take_length, hs] at this
      exact this h1
  · rcases hf : Nat.find hex with _ | m
    · simpa [cut] using h0
    · have := Nat.find_min hex (m := m) (by omega)
      simpa [cut] using this
  · apply le_antisymm
    · by_contra hlt
      have := take_sum_mono h (show Nat.find hex + 1 ≤ k' by omega)
      have h2 := Nat.find_spec hex
      have ha : (ps.take k').sum ≤ u := ha
      linarith
    · exact Nat.find_min' hex hb

theorem sum_single {α : Type*} {l : List α} {f : α → ℂ} {k : Nat} (hk : k < l.length)
    (h : ∀ k' (hk' : k' < l.length), k' ≠ k → f l[k'] = 0) : (l.map f).sum = f l[k] := by
  rw [← Fin.sum_univ_getElem (l.map f), Finset.sum_eq_single (⟨k, by simpa using hk⟩ : Fin (l.map f).length)]
  · simp
  · intro b _ hb
    have := h b (by simpa using b.2) (fun e => hb (Fin.ext e))
    simpa using this
  · simp

/-! ## alternatives -/

structure AltFacts (n : Nat) (i : Instr) (d : GateDesc) : Prop where
  built : ∃ g, d.build = .ok g
  ok : DescOK d
  unitary : UnitaryDesc d
  qubits : ∀ q ∈ qubitsOf d, q ∈ i.qubits

theorem alt_facts {i : Instr} {g : Item} (hb : i.build = .ok g) (hok : i.OK) {n : Nat} (hu : Unitaries i)
    {θ : String → Option ℝ} (hk : ∀ k, i.key? = some k → ∃ t, θ k = some t) (hm : NotMeasure i) :
    (∀ d ∈ i.alternatives θ, AltFacts n i d) ∧ (∀ p ∈ i.weights, 0 ≤ p) ∧ i.weights.length = (i.alternatives θ).length := by
  cases i with
  | gate d =>
    obtain ⟨u, hu', hb⟩ := bind_ok (show (do let g ← d.build; pure (Sum.inl (Gate.det g))) = .ok g from hb)
    refine ⟨?_, by simp [Instr.weights], rfl⟩
    intro d' hd'
    obtain rfl : d' = d := by simpa [Instr.alternatives] using hd'
    exact ⟨⟨u, hu'⟩, hok, hu, fun q h => h⟩
  | choice ps ds =>
    obtain ⟨gs, hgs, hb⟩ := bind_ok (show (do
      let gs ← ds.mapM GateDesc.build
      let g ← mkProbabilistic (ps.map some) (gs.map .det)
      pure (Sum.inl g)) = .ok g from hb)
    obtain ⟨g, hg, hb⟩ := bind_ok hb
    obtain ⟨t, ht, hg⟩ := bind_ok (show (do
      let t ← mkProbTable (ps.map some) ((gs.map Gate.det).map Gate.component)
      pure (Gate.prob t)) = .ok g from hg)
    rw [List.map_map, show Gate.component ∘ Gate.det = Component.leaf from rfl] at ht
    obtain ⟨hok', rfl, rfl⟩ := mkProbTable_leaf ht
    obtain ⟨hl, hget⟩ := mapM_get GateDesc.build hgs
    refine ⟨fun d hd => ?_, hok'.nonneg, ?_⟩
    · obtain ⟨k, hk', rfl⟩ := List.mem_iff_getElem.1 (show d ∈ ds from hd)
      obtain ⟨v, -, hbu⟩ := hget k _ (List.getElem?_eq_getElem hk')
      exact ⟨⟨v, hbu⟩, hok _ (List.getElem_mem hk'), hu _ (List.getElem_mem hk'),
        fun q h => List.mem_flatMap.2 ⟨_, List.getElem_mem hk', h⟩⟩
    · show t.dist.length = ds.length
      rw [hok'.len, hl]
  | measure q c r => exact absurd rfl (hm q c r)
  | rot r key =>
    obtain ⟨p, hp, hb⟩ := bind_ok (show (do let p ← r.build; pure (Sum.inr (PGate.rot p, key))) = .ok g from hb)
    obtain ⟨t, ht⟩ := hk key rfl
    have ha : (Instr.rot r key).alternatives θ = [r.at t] := by simp [Instr.alternatives, ht]
    rw [ha]
    refine ⟨?_, by simp [Instr.weights], rfl⟩
    intro d hd
    obtain rfl : d = r.at t := by simpa using hd
    exact ⟨⟨_, rot_build hp t⟩, rot_descOK r t, unitary_rot hu t, by rw [rot_qubits]; exact fun q h => h⟩
  | pchoice ps ls key =>
    obtain ⟨gs, hgs, hb⟩ := bind_ok (show (do
      let gs ← ls.mapM LeafDesc.build
      let p ← mkParamProbabilistic (ps.map some) gs
      pure (Sum.inr (p, key))) = .ok g from hb)
    obtain ⟨p, hpb, hb⟩ := bind_ok hb
    obtain ⟨tb, htb, hpb⟩ := bind_ok (show (do
      let t ← mkProbTable (ps.map some) (gs.map eitherComponent)
      pure (PGate.prob t)) = .ok p from hpb)
    obtain ⟨us, hus, he⟩ := leaves_build hgs
    rw [he] at htb
    obtain ⟨hok', rfl, rfl⟩ := mkProbTable_leaf htb
    obtain ⟨hl, hget⟩ := mapM_get leafOf hus
    obtain ⟨t, ht⟩ := hk key rfl
    have ha : (Instr.pchoice tb.dist ls key).alternatives θ = ls.map (·.at t) := by simp [Instr.alternatives, ht]
    rw [ha]
    refine ⟨fun d hd => ?_, hok'.nonneg, ?_⟩
    · obtain ⟨x, hx, rfl⟩ := List.mem_map.1 hd
      obtain ⟨k, hk', rfl⟩ := List.mem_iff_getElem.1 hx
      obtain ⟨v, -, hbu⟩ := hget k _ (List.getElem?_eq_getElem hk')
      have hqk : ∀ q ∈ qubitsOf (ls[k].at 0), q ∈ (Instr.pchoice tb.dist ls key).qubits :=
        fun q h => List.mem_flatMap.2 ⟨_, List.getElem_mem hk', h⟩
      have hou := hu _ (List.getElem_mem hk')
      have hoo := hok _ (List.getElem_mem hk')
      generalize ls[k] = x at *
      cases x with
      | fixed d =>
        obtain ⟨g, hg, -⟩ := bind_ok (show (do let g ← d.build; pure (PLeaf.fixed g)) = .ok v from hbu)
        exact ⟨⟨g, hg⟩, hoo, hou, hqk⟩
      | rot r =>
        obtain ⟨p, hp, -⟩ := bind_ok (show (do let p ← r.build; pure (PLeaf.rot p)) = .ok v from hbu)
        exact ⟨⟨_, rot_build hp t⟩, rot_descOK r t, unitary_rot hou t, fun q h => hqk q (by
          have h' : q ∈ qubitsOf (r.at t) := h
          rw [rot_qubits] at h'; exact h')⟩
    · rw [List.length_map]
      show tb.dist.length = ls.length
      rw [hok'.len, hl]

theorem fair_weights {i : Instr} (hf : i.Fair) (hm : NotMeasure i) : i.weights.sum = 1 := by
  cases i with
  | gate d => simp [Instr.weights]
  | choice ps ds => exact hf
  | measure q c r => exact absurd rfl (hm q c r)
  | rot r key => simp [Instr.weights]
  | pchoice ps ls key => exact hf

theorem single_alternative {i : Instr} {θ : String → Option ℝ} (hk : ∀ k, i.key? = some k → ∃ t, θ k = some t) (hm : NotMeasure i)
    (hr : i.random = false) : (i.alternatives θ).length = 1 ∧ i.weights = [1] := by
  cases i with
  | gate d => exact ⟨rfl, rfl⟩
  | choice ps ds => cases hr
  | measure q c r => exact absurd rfl (hm q c r)
  | rot r key =>
    obtain ⟨t, ht⟩ := hk key rfl
    exact ⟨by simp [Instr.alternatives, ht], rfl⟩
  | pchoice ps ls key => cases hr

/-- the effect of an instruction that takes its `k`-th alternative -/
theorem alt_effect {n : Nat} {θ : String → Option ℝ} {l : Line} (hm : NotMeasure l.instr) {s : Situation} (hc : l.CondIs s.reg true)
    (hfree : ∀ q ∈ s.measured, q ∉ l.instr.qubits) {k : Nat} (hk : k < (l.instr.alternatives θ).length)
    (hlen : l.instr.weights.length = (l.instr.alternatives θ).length) {u : ℝ}
    (hu : (cut l.instr.weights k).1 ≤ u ∧ u < (cut l.instr.weights k).2) :
    l.Effect n θ s (if l.instr.random then [u] else []) { s with psi := onState (2 ^ n) (operatorOf (l.instr.alternatives θ)[k]) s.psi } := by
  obtain ⟨ins, c⟩ := l
  dsimp only at *
  cases ins with
  | gate d =>
    obtain rfl : k = 0 := by simpa [Instr.alternatives] using hk
    exact .gate d c s hc hfree
  | choice ps ds =>
    exact .choice ps ds c s u k hk hc (fun q hq d hd h => hfree q hq (List.mem_flatMap.2 ⟨d, hd, h⟩))
      ⟨by rw [show ps.length = ds.length from hlen]; exact hk, hu.1, Or.inl hu.2⟩
  | measure q cb r => exact absurd rfl (hm q cb r)
  | rot r key =>
    cases ht : θ key with
    | none => simp [Instr.alternatives, ht] at hk
    | some t =>
      have ha : (Instr.rot r key).alternatives θ = [r.at t] := by simp [Instr.alternatives, ht]
      obtain rfl : k = 0 := by rw [ha] at hk; simpa using hk
      simp only [ha, List.getElem_cons_zero]
      exact .rot r key t c s hc hfree ht
  | pchoice ps ls key =>
    cases ht : θ key with
    | none => simp [Instr.alternatives, ht] at hk
    | some t =>
      have ha : (Instr.pchoice ps ls key).alternatives θ = ls.map (·.at t) := by simp [Instr.alternatives, ht]
      have hk' : k < ls.length := by rw [ha, List.length_map] at hk; exact hk
      simp only [ha, List.getElem_map]
      refine .pchoice ps ls key t c s u k hk' hc (fun q hq d hd h => hfree q hq (List.mem_flatMap.2 ⟨d, hd, h⟩)) ht ⟨?_, hu.1, Or.inl hu.2⟩
      rw [ha, List.length_map] at hlen
      rw [show ps.length = ls.length from hlen]; exact hk'

/-! ## quadratic quantities -/

/-- a quantity that depends on the state of a branch like a density matrix -/
def Quadratic (n : Nat) (D : Branch → ℂ) : Prop :=
  ∀ (c : ℂ) (φ ψ : U64 → ℂ) (r : List Bool), (∀ j : U64, j.toNat < 2 ^ n → φ j = c * ψ j) → D ⟨φ, r⟩ = (Complex.normSq c : ℂ) * D ⟨ψ, r⟩

theorem quadratic_density {n : Nat} {i j : U64} (hi : i.toNat < 2 ^ n) (hj : j.toNat < 2 ^ n) (r : List Bool) :
    Quadratic n fun b => if b.reg = r then b.psi i * (starRingEnd ℂ) (b.psi j) else 0 := by
  intro c φ ψ r' h
  dsimp only
  split
  · rw [h i hi, h j hj, map_mul, Complex.normSq_eq_conj_mul_self]; ring
  · simp

theorem operator_scale {d : GateDesc} {g : UGate} (hd : DescOK d) (hb : d.build = .ok g) {n : Nat} (hq : ∀ q ∈ qubitsOf d, q < n)
    {c : ℂ} {φ ψ : U64 → ℂ} (h : ∀ j : U64, j.toNat < 2 ^ n → φ j = c * ψ j) (j : U64) (hj : j.toNat < 2 ^ n) :
    onState (2 ^ n) (operatorOf d) φ j = c * onState (2 ^ n) (operatorOf d) ψ j := by
  obtain ⟨-, ho, hs⟩ := build_valid hd hb
  rw [show onState (2 ^ n) (operatorOf d) φ j = _ from if_pos hj, show onState (2 ^ n) (operatorOf d) ψ j = _ from if_pos hj, ← ho]
  have := opOf_local (B := 1) (build_bounds hs hq).1 φ (fun j => c * ψ j) (by rw [Nat.one_mul]; exact h) j (by rw [Nat.one_mul]; exact hj)
  rw [this, opOf_smul]

theorem measured_scale {n q : Nat} (hn : n < 64) (hq : q < n) (b reset : Bool) {c : ℂ} {φ ψ : U64 → ℂ}
    (h : ∀ j : U64, j.toNat < 2 ^ n → φ j = c * ψ j) (j : U64) (hj : j.toNat < 2 ^ n) :
    onState (2 ^ n) (measured q b reset) φ j = c * onState (2 ^ n) (measured q b reset) ψ j := by
  rw [show onState (2 ^ n) (measured q b reset) φ j = _ from if_pos hj, show onState (2 ^ n) (measured q b reset) ψ j = _ from if_pos hj]
  unfold measured
  rw [h _ (setBit_lt (by omega) hq hj b), h j hj]
  split <;> split <;> simp

/-- what is assumed of a line -/
structure LineOK (n : Nat) (θ : String → Option ℝ) (len : Nat) (l : Line) : Prop where
  built : ∃ g, l.instr.build = .ok g
  ok : l.instr.OK
  qubits : ∀ q ∈ l.instr.qubits, q < n
  unitary : Unitaries l.instr
  keys : ∀ k, l.instr.key? = some k → ∃ t, θ k = some t
  reg : RegisterOK len l
  fair : l.instr.Fair

theorem split_instr {i : Instr} (hm : NotMeasure i) (n : Nat) (θ : String → Option ℝ) (s : Branch) :
    i.split n θ s = (i.weights.zip (i.alternatives θ)).map fun pd =>
      ⟨fun j => (Real.sqrt pd.1 : ℂ) * onState (2 ^ n) (operatorOf pd.2) s.psi j, s.reg⟩ := by
  cases i with
  | measure q c r => exact absurd rfl (hm q c r)
  | _ => rfl

theorem measure_or (i : Instr) : NotMeasure i ∨ ∃ q c r, i = .measure q c r := by
  cases i with
  | measure q c r => exact Or.inr ⟨q, c, r, rfl⟩
  | _ => exact Or.inl fun q c r h => by cases h

theorem quadratic_instr {n : Nat} (hn : n < 64) {θ : String → Option ℝ} {len : Nat} {l : Line} (hl : LineOK n θ len l) {D : Branch → ℂ}
    (hD : Quadratic n D) : Quadratic n fun b => ((l.instr.split n θ b).map D).sum := by
  intro c φ ψ r h
  dsimp only
  obtain ⟨g, hg⟩ := hl.built
  rw [← List.sum_map_mul_left]
  rcases measure_or l.instr with hm | ⟨q, cb, rs, hm⟩
  · obtain ⟨hf, -, -⟩ := alt_facts hg hl.ok (n := n) hl.unitary hl.keys hm
    rw [split_instr hm, split_instr hm, List.map_map, List.map_map]
    congr 1
    refine List.map_congr_left fun pd hpd => ?_
    have hd := hf pd.2 (List.of_mem_zip hpd).2
    obtain ⟨u, hu⟩ := hd.built
    refine hD c _ _ _ fun j hj => ?_
    rw [operator_scale hd.ok hu (fun q hq => hl.qubits q (hd.qubits q hq)) h j hj]
    ring
  · have hq := hl.qubits q (by rw [hm]; simp [Instr.qubits])
    rw [hm]
    simp only [Instr.split, List.map_map]
    congr 1
    refine List.map_congr_left fun b _ => ?_
    exact hD c _ _ _ fun j hj => measured_scale hn hq b rs h j hj

theorem quadratic_line {n : Nat} (hn : n < 64) {θ : String → Option ℝ} {len : Nat} {l : Line} (hl : LineOK n θ len l) {D : Branch → ℂ}
    (hD : Quadratic n D) : Quadratic n fun b => ((l.split n θ b).map D).sum := by
  intro c φ ψ r h
  unfold Line.split
  dsimp only
  cases l.cond with
  | none => exact quadratic_instr hn hl hD c φ ψ r h
  | some f =>
    dsimp only
    cases f r with
    | error e => simp
    | ok b =>
      cases b with
      | true => exact quadratic_instr hn hl hD c φ ψ r h
      | false => simpa using hD c φ ψ r h

theorem sum_flatMap {α β : Type*} (l : List α) (g : α → List β) (f : β → ℂ) :
    ((l.flatMap g).map f).sum = (l.map fun a => ((g a).map f).sum).sum := by
  induction l with
  | nil => rfl
  | cons a l ih => simp [List.flatMap_cons, ih]

theorem quadratic_branches {n : Nat} (hn : n < 64) {θ : String → Option ℝ} {len : Nat} {ls : List Line} (hl : ∀ l ∈ ls, LineOK n θ len l)
    {D : Branch → ℂ} (hD : Quadratic n D) : Quadratic n fun b => ((branches n θ ls b).map D).sum := by
  induction ls with
  | nil => intro c φ ψ r h; simpa [branches] using hD c φ ψ r h
  | cons l ls ih =>
    have := quadratic_line hn (hl l List.mem_cons_self) (ih fun x hx => hl x (List.mem_cons_of_mem _ hx))
    intro c φ ψ r h
    have := this c φ ψ r h
    simpa only [branches, sum_flatMap] using this

end Verif.Proofs
