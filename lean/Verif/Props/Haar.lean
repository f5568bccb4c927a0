import Verif.Proofs.Haar
import Verif.Props.Circuit
import Verif.Props.Density

/-! # C78: Haar random states

The numbers drawn by the work items are independent random variables with the standard normal distribution on some probability space:
`g i false` and `g i true` are those of item `i`, for batches `g b i false` and `g b i true` those of item `(b, i)`. -/

namespace Verif.Props
open Verif Verif.Spec Verif.Model Verif.Proofs MeasureTheory ProbabilityTheory
attribute [-simp] BitVec.getLsbD_eq_getElem

variable {Ω : Type*} [MeasurableSpace Ω] {μ : Measure Ω} [IsProbabilityMeasure μ]

/-- independent standard normal random numbers exist -/
theorem normalDraws_exist (ι : Type) : ∃ (μ : Measure (ι → ℝ)), IsProbabilityMeasure μ ∧ NormalDraws μ fun i ω => ω i :=
  ⟨Measure.infinitePi fun _ : ι => gaussianReal 0 1, inferInstance, fun i => measurable_pi_apply i,
    iIndepFun_infinitePi (X := fun _ x => x) fun _ => measurable_id, fun i => Measure.infinitePi_map_eval _ i⟩

/-! ## one state -/

omit [IsProbabilityMeasure μ] in
/-- **C78 (return).** With probability one `set_Haar_random_state` returns and leaves a state of norm 1, the same under every schedule,
whatever the state (or the uninitialised memory) held before. -/
theorem C78_returns {n : Nat} (hn : n ≤ 63) {g : ℕ → Bool → Ω → ℝ} (hg : NormalDraws μ fun p : ℕ × Bool => g p.1 p.2) :
    ∀ᵐ ω ∂μ, (∀ ψ, ∃ ψ', SetsHaar n (fun i c => g i c ω) ψ ψ') ∧
      ∀ ψ φ ψ' φ', SetsHaar n (fun i c => g i c ω) ψ ψ' → SetsHaar n (fun i c => g i c ω) φ φ' →
        normSq (2 ^ n) ψ' = 1 ∧ (∀ j : U64, j.toNat < 2 ^ n → ψ' j = φ' j) ∧ (ψ = φ → ψ' = φ') := by
  filter_upwards [rawVec_ne (N := 2 ^ n) (by positivity) hg] with ω hω
  refine ⟨setsHaar_exists hn hω, fun ψ φ ψ' φ' h h' => ⟨?_, ?_, ?_⟩⟩
  · rw [normSq_vec hn, setsHaar_vec hn h, norm_direction hω, one_pow]
  · exact fun j hj => vec_inj ((setsHaar_vec hn h).trans (setsHaar_vec hn h').symm) hj
  · rintro rfl
    exact setsHaar_unique h h'

/-- **C78 (distribution).** The random state is a unit vector whose distribution no unitary transformation changes. -/
theorem C78_haar {n : Nat} (hn : n ≤ 63) {g : ℕ → Bool → Ω → ℝ} (hg : NormalDraws μ fun p : ℕ × Bool => g p.1 p.2)
    {ψ ψ' : Ω → U64 → ℂ} (h : ∀ᵐ ω ∂μ, SetsHaar n (fun i c => g i c ω) (ψ ω) (ψ' ω)) : IsHaar n (μ.map fun ω => amplitudes n (ψ' ω)) := by
  have e : (fun ω => amplitudes n (ψ' ω)) =ᵐ[μ] fun ω => direction (rawVec (2 ^ n) fun i b => g i b ω) := by
    filter_upwards [h] with ω hω
    exact setsHaar_vec hn hω
  rw [Measure.map_congr e]
  exact direction_haar n hg

/-- **C78 (only one).** There is only one such distribution: whatever else produces unit vectors with a distribution that no unitary
transformation changes has the distribution of the random states. -/
theorem C78_unique {n : Nat} (hn : n ≤ 63) {g : ℕ → Bool → Ω → ℝ} (hg : NormalDraws μ fun p : ℕ × Bool => g p.1 p.2)
    {ψ ψ' : Ω → U64 → ℂ} (h : ∀ᵐ ω ∂μ, SetsHaar n (fun i c => g i c ω) (ψ ω) (ψ' ω)) {ν : Measure (Amplitudes n)} (hν : IsHaar n ν) :
    μ.map (fun ω => amplitudes n (ψ' ω)) = ν := haar_unique (C78_haar hn hg h) hν

omit [IsProbabilityMeasure μ] in
theorem haar_mean {n : Nat} (hn : n ≤ 63) {φ : Ω → U64 → ℂ} (hm : AEMeasurable (fun ω => amplitudes n (φ ω)) μ)
    (h : IsHaar n (μ.map fun ω => amplitudes n (φ ω))) {i j : U64} (hi : i.toNat < 2 ^ n) (hj : j.toNat < 2 ^ n) :
    ∫ ω, φ ω i * (starRingEnd ℂ) (φ ω j) ∂μ = if i = j then 1 / (2 : ℂ) ^ n else 0 := by
  have e := haar_moment h ⟨i.toNat, hi⟩ ⟨j.toNat, hj⟩
  rw [integral_map hm (by fun_prop)] at e
  have hr : ∀ (ω : Ω) (k : U64) (hk : k.toNat < 2 ^ n), amplitudes n (φ ω) ⟨k.toNat, hk⟩ = φ ω k := fun ω k hk => by
    show φ ω (BitVec.ofNat 64 k.toNat) = _
    simp
  simp only [hr] at e
  rw [e]
  exact if_congr (by rw [Fin.mk.injEq]; exact BitVec.toNat_inj) rfl rfl

omit [IsProbabilityMeasure μ] in
theorem haar_aemeasurable {n : Nat} {φ : Ω → U64 → ℂ} (h : IsHaar n (μ.map fun ω => amplitudes n (φ ω))) :
    AEMeasurable (fun ω => amplitudes n (φ ω)) μ := by
  by_contra hm
  have h1 := h.prob.measure_univ
  rw [Measure.map_of_not_aemeasurable hm] at h1
  simp at h1

/-- **C78 (average).** On average over many random states `|ψ⟩⟨ψ|` is the completely mixed state: `1 / 2^n` on the diagonal, 0 elsewhere. -/
theorem C78_mean {n : Nat} (hn : n ≤ 63) {g : ℕ → Bool → Ω → ℝ} (hg : NormalDraws μ fun p : ℕ × Bool => g p.1 p.2)
    {ψ ψ' : Ω → U64 → ℂ} (h : ∀ᵐ ω ∂μ, SetsHaar n (fun i c => g i c ω) (ψ ω) (ψ' ω)) {i j : U64} (hi : i.toNat < 2 ^ n)
    (hj : j.toNat < 2 ^ n) : ∫ ω, ψ' ω i * (starRingEnd ℂ) (ψ' ω j) ∂μ = if i = j then 1 / (2 : ℂ) ^ n else 0 :=
  haar_mean hn (haar_aemeasurable (C78_haar hn hg h)) (C78_haar hn hg h) hi hj

/-- **C78 (circuits).** A circuit of unitary gates and parametric rotations turns a Haar random state into a Haar random state. -/
theorem C78_circuit {ls : List Line} {C : Circuit} {L n : Nat} (hC : CircuitOf ls C n) (hL : LanesOK L) (hn : n < 64)
    {θ : String → Option ℝ} (hk : KeysGiven ls θ) (hp : ∀ l ∈ ls, Line.Plain l) (hu : ∀ l ∈ ls, Unitaries l.instr) {rnd : Nat → ℝ}
    {φ ψ' : Ω → U64 → ℂ} (hφ : IsHaar n (μ.map fun ω => amplitudes n (φ ω)))
    (hrun : ∀ᵐ ω ∂μ, C.RunsPlain L n rnd θ (φ ω) (ψ' ω) none) : IsHaar n (μ.map fun ω => amplitudes n (ψ' ω)) := by
  have key : ∀ ls : List Line, (∀ l ∈ ls, ∃ g, l.instr.build = .ok g) → (∀ l ∈ ls, l.instr.OK) → (∀ l ∈ ls, ∀ q ∈ l.instr.qubits, q < n) →
      KeysGiven ls θ → (∀ l ∈ ls, Line.Plain l) → (∀ l ∈ ls, Unitaries l.instr) →
      ∃ U : Vect n ≃ₗᵢ[ℂ] Vect n, ∀ ψ, vec n (ls.foldl (fun φ l => onState (2 ^ n) (Line.operator θ l) φ) ψ) = U (vec n ψ) := by
    intro ls
    induction ls with
    | nil => intro _ _ _ _ _ _; exact ⟨LinearIsometryEquiv.refl ℂ _, fun ψ => rfl⟩
    | cons l ls ih =>
      intro hb ho hq hk hp hu
      obtain ⟨V, hV⟩ := ih (fun l hl => hb l (List.mem_cons_of_mem _ hl)) (fun l hl => ho l (List.mem_cons_of_mem _ hl))
        (fun l hl => hq l (List.mem_cons_of_mem _ hl)) (fun l hl => hk l (List.mem_cons_of_mem _ hl))
        (fun l hl => hp l (List.mem_cons_of_mem _ hl)) (fun l hl => hu l (List.mem_cons_of_mem _ hl))
      have hone : ∃ U : Vect n ≃ₗᵢ[ℂ] Vect n, ∀ ψ, vec n (onState (2 ^ n) (Line.operator θ l) ψ) = U (vec n ψ) := by
        obtain ⟨g, hg⟩ := hb l List.mem_cons_self
        have hok := ho l List.mem_cons_self
        have hql := hq l List.mem_cons_self
        have hul := hu l List.mem_cons_self
        have hpl := (hp l List.mem_cons_self).2
        have hkl := hk l List.mem_cons_self
        obtain ⟨ins, cond⟩ := l
        cases ins with
        | gate d =>
          obtain ⟨u, hbu, -⟩ := bind_ok (show (do let g ← d.build; pure (Sum.inl (Gate.det g))) = .ok g from hg)
          exact gate_isometry hok hul hbu (by omega) hql
        | rot r k =>
          obtain ⟨t, ht⟩ := hkl k rfl
          obtain ⟨p, hpb, -⟩ := bind_ok (show (do let p ← r.build; pure (Sum.inr (PGate.rot p, k))) = .ok g from hg)
          have e : Line.operator θ ⟨.rot r k, cond⟩ = operatorOf (r.at t) := by
            unfold Line.operator
            dsimp only
            rw [ht]
          rw [e]
          exact gate_isometry (rot_descOK r t) (unitary_rot hul t) (rot_build hpb t) (by omega) (by rw [rot_qubits]; exact hql)
        | choice => exact hpl.elim
        | measure => exact hpl.elim
        | pchoice => exact hpl.elim
      obtain ⟨U, hU⟩ := hone
      exact ⟨U.trans V, fun ψ => by rw [List.foldl_cons, hV, hU]; rfl⟩
  obtain ⟨gs, hgs, -⟩ := buildCircuit_ok hC.built
  obtain ⟨U, hU⟩ := key ls (fun l hl => by
    obtain ⟨k, hk, rfl⟩ := List.mem_iff_getElem.1 hl
    obtain ⟨g, -, hg⟩ := (mapM_get _ hgs).2 k _ (List.getElem?_eq_getElem hk)
    exact ⟨g, hg⟩) hC.args hC.qubits hk hp hu
  have e : (fun ω => amplitudes n (ψ' ω)) =ᵐ[μ] fun ω => U (amplitudes n (φ ω)) := by
    filter_upwards [hrun] with ω hω
    rw [((C38_operators hC hL hn hk hp (φ ω) rnd (ψ' ω) none).1 hω).1]
    exact hU _
  have hm := haar_aemeasurable hφ
  have e2 : μ.map (fun ω => U (amplitudes n (φ ω))) = μ.map fun ω => amplitudes n (φ ω) := by
    conv_rhs => rw [← hφ.invariant U]
    rw [AEMeasurable.map_map_of_aemeasurable U.continuous.aemeasurable hm]
    rfl
  rw [Measure.map_congr e, e2]
  exact hφ

/-! ## batches -/

/-- **C78 (batched).** Without `set_same_state` every slot is a Haar random state and the slots are independent. -/
theorem C78_batched {n B : Nat} (hn : n ≤ 63) {g : ℕ → ℕ → Bool → Ω → ℝ} (hg : NormalDraws μ fun p : ℕ × ℕ × Bool => g p.1 p.2.1 p.2.2)
    {s s' : Ω → Batch} (hs : ∀ ω, (s ω).n = n ∧ (s ω).size = B)
    (h : ∀ᵐ ω ∂μ, (s ω).SetsHaar false (fun b i c => g b i c ω) (s' ω)) :
    (∀ᵐ ω ∂μ, (s' ω).n = n ∧ (s' ω).size = B) ∧ (∀ b, b < B → IsHaar n (μ.map fun ω => amplitudes n ((s' ω).raw b))) ∧
    iIndepFun (fun (b : Fin B) ω => amplitudes n ((s' ω).raw b)) μ := by
  have hfalse : ∀ᵐ ω ∂μ, (s' ω).n = n ∧ (s' ω).size = B ∧
      ∀ b, b < B → amplitudes n ((s' ω).raw b) = direction (rawVec (2 ^ n) fun i c => g b i c ω) := by
    filter_upwards [h] with ω hω
    unfold Batch.SetsHaar at hω
    rw [if_neg (by simp)] at hω
    obtain ⟨t, ht1, ht2, hfill, hn1, hn2, hnorm⟩ := hω
    obtain ⟨e1, e2⟩ := hs ω
    refine ⟨by rw [hn1, ht1, e1], by rw [hn2, ht2, e2], fun b hb => ?_⟩
    have h1 := hfill b (by rw [e2]; exact hb)
    have h2 := hnorm b (by rw [ht2, e2]; exact hb)
    rw [ht1] at h2
    rw [e1] at h1 h2
    exact setsHaar_vec hn ⟨_, h1, h2⟩
  have hae : ∀ b, b < B → (fun ω => amplitudes n ((s' ω).raw b)) =ᵐ[μ] fun ω => direction (rawVec (2 ^ n) fun i c => g b i c ω) := by
    intro b hb
    filter_upwards [hfalse] with ω hω
    exact hω.2.2 b hb
  refine ⟨?_, fun b hb => ?_, ?_⟩
  · filter_upwards [hfalse] with ω hω
    exact ⟨hω.1, hω.2.1⟩
  · rw [Measure.map_congr (hae b hb)]
    exact direction_haar n (normalDraws_block (g := fun b (p : ℕ × Bool) => g b p.1 p.2) hg b)
  · have h1 := indep_blocks (g := fun b (p : ℕ × Bool) => g b p.1 p.2) (fun b p => hg.meas (b, p)) hg.indep
    have hd : Measurable fun f : ℕ × Bool → ℝ => direction (rawVec (2 ^ n) fun i c => f (i, c)) :=
      direction_measurable.comp (rawVec_measurable (g := fun i c (f : ℕ × Bool → ℝ) => f (i, c)) fun i c => measurable_pi_apply (i, c))
    have h2 := (h1.precomp (g := fun b : Fin B => b.val) Fin.val_injective).comp (fun _ f => direction (rawVec (2 ^ n) fun i c => f (i, c))) fun _ => hd
    exact h2.congr fun b => (hae b.val b.isLt).symm

/-- **C78 (batched, same state).** With `set_same_state` one Haar random state is in every slot. -/
theorem C78_batched_same {n B : Nat} (hn : n ≤ 63) {g : ℕ → ℕ → Bool → Ω → ℝ}
    (hg : NormalDraws μ fun p : ℕ × ℕ × Bool => g p.1 p.2.1 p.2.2) {s s' : Ω → Batch} (hs : ∀ ω, (s ω).n = n ∧ (s ω).size = B)
    (h : ∀ᵐ ω ∂μ, (s ω).SetsHaar true (fun b i c => g b i c ω) (s' ω)) :
    (∀ᵐ ω ∂μ, (s' ω).n = n ∧ (s' ω).size = B ∧ ∀ b c, b < B → c < B → ∀ j : U64, j.toNat < 2 ^ n → (s' ω).raw b j = (s' ω).raw c j) ∧
    ∀ b, b < B → IsHaar n (μ.map fun ω => amplitudes n ((s' ω).raw b)) := by
  have htrue : ∀ᵐ ω ∂μ, (s' ω).n = n ∧ (s' ω).size = B ∧
      ∀ b, b < B → amplitudes n ((s' ω).raw b) = direction (rawVec (2 ^ n) fun i c => g 0 i c ω) := by
    filter_upwards [h] with ω hω
    unfold Batch.SetsHaar at hω
    rw [if_pos rfl] at hω
    obtain ⟨hn1, hn2, junk, ψ, hset, hcopy⟩ := hω
    obtain ⟨e1, e2⟩ := hs ω
    refine ⟨by rw [hn1, e1], by rw [hn2, e2], fun b hb => ?_⟩
    have h1 := hcopy b (by rw [e2]; exact hb)
    rw [e1] at h1 hset
    exact (vec_fill hn h1).trans (setsHaar_vec hn hset)
  constructor
  · filter_upwards [htrue] with ω hω
    exact ⟨hω.1, hω.2.1, fun b c hb hc j hj => vec_inj ((hω.2.2 b hb).trans (hω.2.2 c hc).symm) hj⟩
  · intro b hb
    have hae : (fun ω => amplitudes n ((s' ω).raw b)) =ᵐ[μ] fun ω => direction (rawVec (2 ^ n) fun i c => g 0 i c ω) := by
      filter_upwards [htrue] with ω hω
      exact hω.2.2 b hb
    rw [Measure.map_congr hae]
    exact direction_haar n (normalDraws_block (g := fun b (p : ℕ × Bool) => g b p.1 p.2) hg 0)

omit [IsProbabilityMeasure μ] in
/-- **C78 (batched, return).** With probability one `Haar_random_state` of a batch returns. -/
theorem C78_batched_returns {n B : Nat} (hn : n ≤ 63) {g : ℕ → ℕ → Bool → Ω → ℝ}
    (hg : NormalDraws μ fun p : ℕ × ℕ × Bool => g p.1 p.2.1 p.2.2) (same : Bool) :
    ∀ᵐ ω ∂μ, ∀ s : Batch, s.n = n → s.size = B → ∃ s', s.SetsHaar same (fun b i c => g b i c ω) s' := by
  have hne : ∀ᵐ ω ∂μ, ∀ b, rawVec (2 ^ n) (fun i c => g b i c ω) ≠ 0 := by
    rw [ae_all_iff]
    exact fun b => rawVec_ne (N := 2 ^ n) (by positivity) (normalDraws_block (g := fun b (p : ℕ × Bool) => g b p.1 p.2) hg b)
  filter_upwards [hne] with ω hω s e1 e2
  subst e1
  unfold Batch.SetsHaar
  cases same with
  | true =>
    obtain ⟨ψ, hψ⟩ := setsHaar_exists hn (hω 0) (fun _ => 0)
    exact ⟨⟨s.n, s.size, fun b j => if InState (2 ^ s.n) j then ψ j else s.raw b j⟩, rfl, rfl, _, ψ, hψ, fun b _ => fill_runs (pow64 hn) ψ (s.raw b)⟩
  | false =>
    have key : ∀ b, ∃ φ ψ', DRuns (2 ^ s.n) (.par (2 ^ s.n) (fill (2 ^ s.n) (haarItem fun i c => g b i c ω))) (s.raw b) φ ∧ Normalizes s.n φ ψ' := by
      intro b
      obtain ⟨ψ', φ, h1, h2⟩ := setsHaar_exists hn (hω b) (s.raw b)
      exact ⟨φ, ψ', h1, h2⟩
    choose φ ψ' h1 h2 using key
    exact ⟨⟨s.n, s.size, ψ'⟩, ⟨s.n, s.size, φ⟩, rfl, rfl, fun b _ => h1 b, rfl, rfl, fun b _ => h2 b⟩

/-! ## density matrices -/

/-- **C78 (density matrices).** `DensityMatrix::set_Haar_random_state` returns with probability one and stores the projector on a Haar
random state, marked Hermitian; on average it is the completely mixed state. -/
theorem C78_density {n : Nat} (hn : n < 32) {g : ℕ → Bool → Ω → ℝ} (hg : NormalDraws μ fun p : ℕ × Bool => g p.1 p.2) :
    (∀ᵐ ω ∂μ, ∀ d : DM, d.n = n → ∃ d', d.SetsHaar (fun i c => g i c ω) d') ∧
    ∀ d d' : Ω → DM, (∀ ω, (d ω).n = n) → (∀ᵐ ω ∂μ, (d ω).SetsHaar (fun i c => g i c ω) (d' ω)) →
      (∃ ψ : Ω → U64 → ℂ, IsHaar n (μ.map fun ω => amplitudes n (ψ ω)) ∧
        ∀ᵐ ω ∂μ, (d' ω).n = n ∧ (d' ω).hermitian = true ∧ ∀ p, CellOf n p → (d' ω).raw p = projector (ψ ω) p) ∧
      ∀ p, CellOf n p → ∫ ω, (d' ω).raw p ∂μ = if p.1 = p.2 then 1 / (2 : ℂ) ^ n else 0 := by
  have hn' : n ≤ 63 := by omega
  constructor
  · filter_upwards [rawVec_ne (N := 2 ^ n) (by positivity) hg] with ω hω d hd
    subst hd
    obtain ⟨ψ, hψ⟩ := setsHaar_exists hn' hω (fun _ => 0)
    obtain ⟨d', hd'⟩ := (C59_total hn).2.2.2.2.2.1 ψ
    exact ⟨d', _, ψ, hψ, hd'⟩
  · intro d d' hd h
    have h' : ∀ᵐ ω ∂μ, ∃ ψ, vec n ψ = direction (rawVec (2 ^ n) fun i c => g i c ω) ∧ (d' ω).n = n ∧ (d' ω).hermitian = true ∧
        ∀ p, CellOf n p → (d' ω).raw p = projector ψ p := by
      filter_upwards [h] with ω hω
      obtain ⟨junk, ψ, hψ, hl⟩ := hω
      have e := hd ω
      have hset := ((C59_setters (d := d ω) (d' := d' ω) (by omega)).2.2.2.2.1 _ ψ hl).2
      rw [e] at hset hψ
      obtain ⟨u, hu, h1, h2, -⟩ := hl
      simp only [DMOp.exec] at hu
      rw [if_neg (by simp)] at hu
      cases hu
      exact ⟨ψ, setsHaar_vec hn' hψ, by rw [h1, e], h2, hset⟩
    let ψ : Ω → U64 → ℂ := fun ω => unvec (direction (rawVec (2 ^ n) fun i c => g i c ω))
    have hv : ∀ ω, amplitudes n (ψ ω) = direction (rawVec (2 ^ n) fun i c => g i c ω) := fun ω => vec_unvec hn' _
    have hH : IsHaar n (μ.map fun ω => amplitudes n (ψ ω)) := by
      simp only [hv]
      exact direction_haar n hg
    have hp : ∀ᵐ ω ∂μ, (d' ω).n = n ∧ (d' ω).hermitian = true ∧ ∀ p, CellOf n p → (d' ω).raw p = projector (ψ ω) p := by
      filter_upwards [h'] with ω hω
      obtain ⟨φ, hφ, h1, h2, h3⟩ := hω
      refine ⟨h1, h2, fun p hp => ?_⟩
      have e := hφ.trans (hv ω).symm
      rw [h3 p hp]
      unfold projector
      rw [vec_inj e hp.1, vec_inj e hp.2]
    refine ⟨⟨ψ, hH, hp⟩, fun p hc => ?_⟩
    rw [← haar_mean hn' (haar_aemeasurable hH) hH hc.1 hc.2]
    apply integral_congr_ae
    filter_upwards [hp] with ω hω
    exact hω.2.2 p hc

/-- draws for one state, the random states of three qubits they give, and the random states after a circuit exist -/
example : ∃ (μ : Measure (ℕ × Bool → ℝ)) (ψ' : (ℕ × Bool → ℝ) → U64 → ℂ), IsProbabilityMeasure μ ∧
    NormalDraws μ (fun (p : ℕ × Bool) ω => ω p) ∧ (∀ᵐ ω ∂μ, SetsHaar 3 (fun i c => ω (i, c)) (fun _ => 7) (ψ' ω)) ∧
    IsHaar 3 (μ.map fun ω => amplitudes 3 (ψ' ω)) := by
  obtain ⟨μ, hμ, hg⟩ := normalDraws_exist (ℕ × Bool)
  have h := C78_returns (n := 3) (by norm_num) (g := fun i c (ω : ℕ × Bool → ℝ) => ω (i, c)) hg
  classical
  have hex : ∀ ω : ℕ × Bool → ℝ, ∃ ψ', (∃ ψ'', SetsHaar 3 (fun i c => ω (i, c)) (fun _ => 7) ψ'') → SetsHaar 3 (fun i c => ω (i, c)) (fun _ => 7) ψ' := by
    intro ω
    by_cases he : ∃ ψ'', SetsHaar 3 (fun i c => ω (i, c)) (fun _ => 7) ψ''
    · obtain ⟨ψ, hψ⟩ := he; exact ⟨ψ, fun _ => hψ⟩
    · exact ⟨fun _ => 0, fun h => absurd h he⟩
  choose ψ' hψ' using hex
  have hs : ∀ᵐ ω ∂μ, SetsHaar 3 (fun i c => ω (i, c)) (fun _ => 7) (ψ' ω) := by
    filter_upwards [h] with ω hω
    exact hψ' ω (hω.1 _)
  exact ⟨μ, ψ', hμ, hg, hs, C78_haar (by norm_num) (g := fun i c (ω : ℕ × Bool → ℝ) => ω (i, c)) hg hs⟩

/-- a circuit for `C78_circuit` -/
example : ∃ C, CircuitOf [⟨.gate (.one .H 0 [] []), none⟩, ⟨.gate (.one .X 1 [] []), none⟩] C 2 ∧
    ∀ l ∈ [(⟨.gate (.one .H 0 [] []), none⟩ : Line), ⟨.gate (.one .X 1 [] []), none⟩], Line.Plain l ∧ Unitaries l.instr := by
  obtain ⟨C, hC⟩ := buildCircuit_of (ls := [⟨.gate (.one .H 0 [] []), none⟩, ⟨.gate (.one .X 1 [] []), none⟩]) (by
    intro l hl
    simp only [List.mem_cons, List.not_mem_nil, or_false] at hl
    rcases hl with rfl | rfl
    · exact gate_builds _ (by norm_num)
    · exact gate_builds _ (by norm_num))
  refine ⟨C, ⟨hC, ?_, ?_⟩, ?_⟩ <;>
  · intro l hl
    simp only [List.mem_cons, List.not_mem_nil, or_false] at hl
    rcases hl with rfl | rfl <;> simp [Instr.qubits, qubitsOf, targetsOf, controlsOf, ctrlList, Instr.OK, DescOK, Line.Plain, Unitaries, UnitaryDesc]

/-- draws for batches exist -/
example : ∃ μ : Measure (ℕ × ℕ × Bool → ℝ), IsProbabilityMeasure μ ∧ NormalDraws μ fun (p : ℕ × ℕ × Bool) ω => ω p := normalDraws_exist _

end Verif.Props
