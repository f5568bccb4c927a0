import Verif.Props.Reductions
import Verif.Props.Average

/-! # C76: sampling in floating-point arithmetic

The table of cumulative sums is one of those that the scan can leave (`StackedProbF`), whatever the grouping of the additions; the numbers
delivered by the random pool are independent and uniformly distributed and are converted to the type of the amplitudes. -/

namespace Verif.Props
open Verif Verif.Spec Verif.Model Verif.Proofs MeasureTheory ProbabilityTheory
attribute [-simp] BitVec.getLsbD_eq_getElem

section
variable {F : Type} [_root_.Zero F] [One F] [Add F] [Sub F] [Mul F] [Neg F] {lib : FloatLib F} {gt : F → F → Bool} {val : F → ℝ} {u w η Ω δ ε : ℝ}
variable {Θ : Type*} [MeasurableSpace Θ] {μ : Measure Θ} {draws : ℕ → ℕ → Θ → ℝ}

/-- `q` is a probability distribution on the indices below `N`, the samples are independent with this distribution, and the loop ends -/
structure SampledBy (μ : Measure Θ) (draws : ℕ → ℕ → Θ → ℝ) (N : Nat) (Out : Nat → (ℕ → ℕ → ℝ) → List Nat → Prop) (q : ℕ → ℝ) : Prop where
  nonneg : ∀ k, 0 ≤ q k
  total : ∑ k ∈ Finset.range N, q k = 1
  returns : ∀ count, ∀ᵐ ω ∂μ, ∃ ks, Out count (fun k i => draws k i ω) ks
  law : ∀ ks : List Nat, (∀ k ∈ ks, k < N) → μ.real {ω | Out ks.length (fun k i => draws k i ω) ks} = (ks.map q).prod

theorem sampled_near {s : List F} {N : Nat} {G : Nat → ℝ} {e c : ℝ} (C : Compares lib gt val Ω) (T : NearTable val Ω s N G e)
    (hc : ∀ r : ℝ, 0 ≤ r → r < 1 → |val (lib.cast r) - r| ≤ c) (hΩ : 1 + c ≤ Ω) (hc0 : 0 ≤ c) (hδ : |G N - 1| ≤ δ) (hN : 1 ≤ N) (hs : e + c + δ ≤ 1 / 2)
    (hd : UniformDraws μ fun p : ℕ × ℕ => draws p.1 p.2) :
    ∃ q, SampledBy μ draws N (SamplesFrom lib gt N s) q ∧ ∀ k, k < N → |q k - (G (k + 1) - G k)| ≤ 7 * (e + c + δ) := by
  obtain ⟨h1, h2, h3, h4⟩ := drawProb_facts C T hc hΩ hc0 hδ hN hs
  refine ⟨drawProb lib gt s N, ⟨h2, h3, fun count => ?_, fun ks hk => ?_⟩, h4⟩
  · have := cut_returns (μ := μ) (draws := draws) (draw := fun _ : ℕ => fun r => drawIndexF gt s (lib.cast r)) (alloc := fun t => decide (t < count))
      (dim := N) (fun _ k => drawSet_measurable C T hc hΩ k)
      (fun _ r h0 h1 => by obtain ⟨k, hk, -⟩ := drawIndexF_sound C T.length T.range (cast_range hc hΩ h0 h1); exact ⟨k, hk⟩)
      (ts := List.range count) (fun _ _ => lt_of_le_of_lt h1 (by norm_num)) (by simp) hd (fun _ => 0)
    filter_upwards [this] with ω hω
    obtain ⟨final, hl⟩ := hω
    exact ⟨_, final, hl, rfl⟩
  · exact cut_list_law (draw := fun r => drawIndexF gt s (lib.cast r)) (fun k => drawSet_measurable C T hc hΩ k) (dim := N)
      (lt_of_le_of_lt h1 (by norm_num)) (fun k h => (hk k h).ne) hd

/-- **C76.** Whatever table the scan leaves, the samples are independent and equally distributed, and the probability of an index differs
from `|ψ_k|²` by at most `7 (drawErr + δ)`, where `δ` bounds the deviation of the squared norm from 1. -/
theorem C76_sampling (A : Accurate lib val u w η Ω) (Z : AddZero val Ω) (C : Compares lib gt val Ω) (hu : u ≤ 1 / 64) (hη : η ≤ 1 / 64) {n : Nat}
    (hn : n ≤ 63) {m : U64 → Cx F} (hm : ∀ j : U64, j.toNat < 2 ^ n → ‖cval val (m j)‖ ≤ 4) {P : ℝ} (hP : P = normSq (2 ^ n) fun j => cval val (m j))
    (hΩ : ((1 : ℝ) + u) ^ (2 ^ n + 2) * (P + 2 * ((2 ^ n : ℕ) : ℝ) * η) ≤ Ω) (hδ : |P - 1| ≤ δ) (hε : ε = drawErr u η (2 ^ n) P) (hsmall : ε + δ ≤ 1 / 2)
    {s : List F} (hs : StackedProbF n m s) (hd : UniformDraws μ fun p : ℕ × ℕ => draws p.1 p.2) :
    ∃ q, SampledBy μ draws (2 ^ n) (SamplesFrom lib gt (2 ^ n) s) q ∧
      ∀ k, k < 2 ^ n → |q k - Complex.normSq (cval val (m (BitVec.ofNat 64 k)))| ≤ 7 * (ε + δ) := by
  have hu0 := A.u_nonneg
  have hη0 := A.eta_nonneg
  have hB := A.big
  have T := near_table A Z hu hη hn hm hP hΩ hs
  unfold drawErr at hε
  subst hε
  obtain ⟨q, h1, h2⟩ := sampled_near C T (fun r h0 h1 => cast_near A h0 h1) (by linarith) (by linarith)
    (by rw [cumProb_all hn, ← hP]; exact hδ) Nat.one_le_two_pow hsmall hd
  refine ⟨q, h1, fun k hk => ?_⟩
  have := h2 k hk
  rwa [(C34_draw (n := n) (fun j => cval val (m j)) le_rfl hk).2] at this

/-- **C76 (tables).** The scan can leave a table, and those of the host back ends are among the possible ones. -/
theorem C76_tables {n : Nat} (hn : n ≤ 63) (m : U64 → Cx F) :
    (∃ s : List F, HostStackedProbF n m s) ∧ ∀ s : List F, HostStackedProbF n m s → StackedProbF n m s := by
  refine ⟨?_, fun s hs => ?_⟩
  · obtain ⟨s, hs⟩ := blockTable_exists ((List.range (2 ^ n)).map fun i => (squaredC (m (BitVec.ofNat 64 i)) : F))
    exact ⟨s, (hostStackedProbF_iff hn m s).2 hs⟩
  · exact (stackedProbF_iff hn m s).2 (blockTable_scan ((hostStackedProbF_iff hn m s).1 hs))

/-- **C76 (valid indices).** Whatever the numbers in `[0, 1)` are, all indices returned are valid, and there are `count` of them. -/
theorem C76_valid (A : Accurate lib val u w η Ω) (Z : AddZero val Ω) (C : Compares lib gt val Ω) (hu : u ≤ 1 / 64) (hη : η ≤ 1 / 64) {n : Nat}
    (hn : n ≤ 63) {m : U64 → Cx F} (hm : ∀ j : U64, j.toNat < 2 ^ n → ‖cval val (m j)‖ ≤ 4) {P : ℝ} (hP : P = normSq (2 ^ n) fun j => cval val (m j))
    (hΩ : ((1 : ℝ) + u) ^ (2 ^ n + 2) * (P + 2 * ((2 ^ n : ℕ) : ℝ) * η) ≤ Ω) {rnd : ℕ → ℕ → ℝ} (hr : ∀ k i, 0 ≤ rnd k i ∧ rnd k i < 1) {count : Nat}
    {ks : List Nat} (h : SamplesF lib gt n m count rnd ks) : ks.length = count ∧ ∀ k ∈ ks, k < 2 ^ n := by
  obtain ⟨s, hs, final, hl, rfl⟩ := h
  have hB := A.big
  have T := near_table A Z hu hη hn hm hP hΩ hs
  have hc : ∀ r : ℝ, 0 ≤ r → r < 1 → |val (lib.cast r) - r| ≤ u + η := fun r h0 h1 => cast_near A h0 h1
  refine ⟨by simp, fun k hk => ?_⟩
  obtain ⟨t, ht, rfl⟩ := List.mem_map.1 hk
  refine loop_prop (Q := fun _ j => j < 2 ^ n) (fun t k i j hj hne => ?_) hl t ht
  obtain ⟨k', e, hk', -⟩ := drawIndexF_sound C T.length T.range (cast_range hc (by linarith) (hr k i).1 (hr k i).2)
  rw [e] at hj
  cases hj
  omega

/-- **C76 (amplitudes that are zero).** On a host back end an index whose amplitude is zero is never returned, unless its work item is the
first of a thread other than the first two. -/
theorem C76_zero (A : Accurate lib val u w η Ω) (Z : AddZero val Ω) (C : Compares lib gt val Ω) (hu : u ≤ 1 / 64) (hη : η ≤ 1 / 64) {n : Nat}
    (hn : n ≤ 63) {m : U64 → Cx F} (hm : ∀ j : U64, j.toNat < 2 ^ n → ‖cval val (m j)‖ ≤ 4) {P : ℝ} (hP : P = normSq (2 ^ n) fun j => cval val (m j))
    (hΩ : ((1 : ℝ) + u) ^ (2 ^ n + 2) * (P + 2 * ((2 ^ n : ℕ) : ℝ) * η) ≤ Ω) {blocks : List (List F)} (hb : scanItems n m = .ok blocks.flatten)
    {rnd : ℕ → ℕ → ℝ} (hr : ∀ k i, 0 ≤ rnd k i ∧ rnd k i < 1) {count : Nat} {ks : List Nat}
    (h : SamplesFrom lib gt (2 ^ n) (0 :: blockScan 0 blocks) count rnd ks) {k : Nat} (hk : k < 2 ^ n) (h0 : cval val (m (BitVec.ofNat 64 k)) = 0)
    (hstart : ∀ j, 2 ≤ j → j < blocks.length → (blocks.take j).flatten.length ≠ k) : k ∉ ks := by
  have hB := A.big
  have hhost : HostStackedProbF n m (0 :: blockScan 0 blocks) := ⟨_, hb, blocks, rfl, rfl⟩
  have T := near_table A Z hu hη hn hm hP hΩ ((C76_tables hn m).2 _ hhost)
  have hc : ∀ r : ℝ, 0 ≤ r → r < 1 → |val (lib.cast r) - r| ≤ u + η := fun r h0 h1 => cast_near A h0 h1
  have hx : blocks.flatten[k]? = some (squaredC (m (BitVec.ofNat 64 k))) := by
    rw [scanItems_ok hn] at hb
    rw [← Except.ok.inj hb]
    simp [List.getElem?_range hk]
  have hv := squaredC_zero A Z h0
  -- the elements before and after the work item mean the same number
  have hsame : ∃ p q, (0 :: blockScan 0 blocks)[k]? = some p ∧ (0 :: blockScan 0 blocks)[k + 1]? = some q ∧ val q = val p := by
    by_cases hfirst : ∃ b bs, blocks = b :: bs ∧ b.length = k ∧ bs ≠ []
    · obtain ⟨b, bs, rfl, rfl, hne⟩ := hfirst
      obtain ⟨h1, h2⟩ := blockScan_second hx (fun j hj hl => by
        by_contra hlt
        exact hstart j hj (by omega) hl)
      have hp := T.range _ (List.mem_of_getElem? h1)
      have e : val (0 + blockTotal b) = val (blockTotal b) := Z.left _ _ A.zero hp
      exact ⟨_, _, h1, by rw [List.getElem?_cons_succ]; exact h2, by rw [Z.right _ _ hv (by rw [e]; exact hp), e]⟩
    · obtain ⟨p, h1, h2⟩ := blockScan_step (a := 0) hx (fun j hj hl => by
        by_contra hlt
        rcases eq_or_lt_of_le hj with rfl | hj'
        · apply hfirst
          cases blocks with
          | nil => simp at hlt
          | cons b bs => exact ⟨b, bs, rfl, by simpa using hl, by rintro rfl; simp at hlt⟩
        · exact hstart j hj' (by omega) hl)
      have hp := T.range _ (List.mem_of_getElem? h1)
      exact ⟨p, _, h1, by rw [List.getElem?_cons_succ]; exact h2, Z.right _ _ hv hp⟩
  obtain ⟨p, q, hp, hq, e⟩ := hsame
  obtain ⟨final, hl, rfl⟩ := h
  intro hmem
  obtain ⟨t, ht, hft⟩ := List.mem_map.1 hmem
  refine loop_prop (Q := fun _ j => j ≠ k) (fun t a i j hj _ => ?_) hl t ht hft
  obtain ⟨k', e', -, ha, hb'⟩ := drawIndexF_sound C T.length T.range (cast_range hc (by linarith) (hr a i).1 (hr a i).2)
  have hj : drawIndexF gt (0 :: blockScan 0 blocks) (lib.cast (rnd a i)) = .ok j := hj
  rw [e'] at hj
  have hj := Except.ok.inj hj
  intro hjk
  rw [hj, hjk] at ha hb'
  have h2 := hb' q hq
  rw [e] at h2
  cases k with
  | zero =>
    simp only [List.getElem?_cons_zero, Option.some.injEq] at hp
    rw [← hp, A.zero] at h2
    have := C.cast 0 (rnd a i) le_rfl (hr a i).1 (hr a i).2.le
    rw [A.cast_zero] at this
    linarith
  | succ j => linarith [ha p (by omega) hp]

/-- **C76 (batched states).** The samples of all slots are independent, each slot with its own distribution. -/
theorem C76_batched (A : Accurate lib val u w η Ω) (Z : AddZero val Ω) (C : Compares lib gt val Ω) (hu : u ≤ 1 / 64) (hη : η ≤ 1 / 64) {n size : Nat}
    (hn : n ≤ 63) {m : ℕ → U64 → Cx F} (hm : ∀ b, ∀ j : U64, j.toNat < 2 ^ n → ‖cval val (m b j)‖ ≤ 4)
    (hΩ : ∀ b, ((1 : ℝ) + u) ^ (2 ^ n + 2) * (normSq (2 ^ n) (fun j => cval val (m b j)) + 2 * ((2 ^ n : ℕ) : ℝ) * η) ≤ Ω)
    (hδ : ∀ b, |normSq (2 ^ n) (fun j => cval val (m b j)) - 1| ≤ δ)
    (hε : ∀ b, drawErr u η (2 ^ n) (normSq (2 ^ n) fun j => cval val (m b j)) ≤ ε) (hsmall : ε + δ ≤ 1 / 2)
    {s : ℕ → List F} (hs : ∀ b, StackedProbF n (m b) (s b)) (hd : UniformDraws μ fun p : ℕ × ℕ => draws p.1 p.2) :
    ∃ q : ℕ → ℕ → ℝ, (∀ b, (∀ k, 0 ≤ q b k) ∧ ∑ k ∈ Finset.range (2 ^ n), q b k = 1 ∧
        ∀ k, k < 2 ^ n → |q b k - Complex.normSq (cval val (m b (BitVec.ofNat 64 k)))| ≤ 7 * (ε + δ)) ∧
      ∀ (count : Nat) (k : ℕ → ℕ → ℕ), (∀ b i, k b i < 2 ^ n) →
        μ.real {ω | BatchSamplesFrom lib gt (2 ^ n) size s count (fun k i => draws k i ω) ((List.range size).map fun b => (List.range count).map fun i => k b i)} =
          ∏ b ∈ Finset.range size, ∏ i ∈ Finset.range count, q b (k b i) := by
  have hu0 := A.u_nonneg
  have hη0 := A.eta_nonneg
  have hB := A.big
  have T := fun b => near_table A Z hu hη hn (hm b) rfl (hΩ b) (hs b)
  have hc : ∀ r : ℝ, 0 ≤ r → r < 1 → |val (lib.cast r) - r| ≤ u + η := fun r h0 h1 => cast_near A h0 h1
  have hΩ' : 1 + (u + η) ≤ Ω := by linarith
  have hf := fun b => drawProb_facts (δ := δ) C (T b) hc hΩ' (by linarith) (by rw [cumProb_all hn]; exact hδ b) Nat.one_le_two_pow (by
    have := hε b; unfold drawErr at this; linarith)
  refine ⟨fun b => drawProb lib gt (s b) (2 ^ n), fun b => ⟨(hf b).2.1, (hf b).2.2.1, fun k hk => ?_⟩, fun count k hk => ?_⟩
  · have := (hf b).2.2.2 k hk
    rw [(C34_draw (n := n) (fun j => cval val (m b j)) le_rfl hk).2] at this
    have h2 := hε b
    unfold drawErr at h2
    linarith
  · exact cut_batch_law (draw := fun b r => drawIndexF gt (s b) (lib.cast r)) (fun b k => drawSet_measurable C (T b) hc hΩ' k) (dim := 2 ^ n)
      (fun b _ => lt_of_le_of_lt (hf b).1 (by norm_num)) (fun b i => (hk b i).ne) hd

/-- **C76 (density matrices).** The same for `DensityMatrix::sampling`; the probabilities are those on the diagonal. -/
theorem C76_density (A : Accurate lib val u w η Ω) (Z : AddZero val Ω) (C : Compares lib gt val Ω) (hu : u ≤ 1 / 64) (hη : η ≤ 1 / 64) {n : Nat}
    {ρ : U64 × U64 → Cx F} (hpos : ∀ i, i < 2 ^ n → 0 ≤ val (ρ (BitVec.ofNat 64 i, BitVec.ofNat 64 i)).re) {P : ℝ}
    (hP : P = ∑ i ∈ Finset.range (2 ^ n), val (ρ (BitVec.ofNat 64 i, BitVec.ofNat 64 i)).re)
    (hΩ : ((1 : ℝ) + u) ^ (2 ^ n) * P ≤ Ω) (hδ : |P - 1| ≤ δ) (hε : ε = ((1 + u) ^ (2 ^ n) - 1) * P + (u + η)) (hsmall : ε + δ ≤ 1 / 2)
    {s : List F} (hs : DMStackedProbF n ρ s) (hd : UniformDraws μ fun p : ℕ × ℕ => draws p.1 p.2) :
    ∃ q, SampledBy μ draws (2 ^ n) (SamplesFrom lib gt (2 ^ n) s) q ∧
      ∀ k, k < 2 ^ n → |q k - val (ρ (BitVec.ofNat 64 k, BitVec.ofNat 64 k)).re| ≤ 7 * (ε + δ) := by
  have hu0 := A.u_nonneg
  have hη0 := A.eta_nonneg
  have hB := A.big
  have T := near_table_density A Z hpos hP hΩ hs
  subst hε
  have hall : ∑ i ∈ Finset.range (2 ^ n), max 0 (val (ρ (BitVec.ofNat 64 i, BitVec.ofNat 64 i)).re) = P := by
    rw [hP]
    exact Finset.sum_congr rfl fun i hi => max_eq_right (hpos i (Finset.mem_range.1 hi))
  obtain ⟨q, h1, h2⟩ := sampled_near C T (fun r h0 h1 => cast_near A h0 h1) (by linarith) (by linarith)
    (by rw [hall]; exact hδ) Nat.one_le_two_pow hsmall hd
  refine ⟨q, h1, fun k hk => ?_⟩
  have := h2 k hk
  rwa [Finset.sum_range_succ, add_sub_cancel_left, max_eq_right (hpos k hk)] at this

/-- **C76, circuit then sampling.** A circuit of `k` unitary gates on a state of norm one, followed by `sampling`: the probability of each
index is within `7 drawErr + 24 k E` of its probability after the exact circuit. -/
theorem C76_circuit (A : Accurate lib val u w η Ω) (Z : AddZero val Ω) (C : Compares lib gt val Ω) {ε₀ : ℝ} (hε : u + η + w ≤ ε₀) (h4 : ε₀ ≤ 1 / 400)
    {ds : List GateDesc} {gs : List UGate}
    (hb : List.Forall₂ (fun d g => GateDesc.build d = .ok g) ds gs) (hdd : ∀ d ∈ ds, Bounded u w η Ω ε₀ d)
    (hu : ∀ d ∈ ds, UnitaryDesc d) {L n : Nat} (hf : Fits L 1 n) (hq : ∀ d ∈ ds, ∀ q ∈ qubitsOf d, q < n) {K : ℝ}
    (hK : ∀ d ∈ ds, terms d ≤ K) (hKε : K * ε₀ ≤ 1 / 400) (hKΩ : 16 * K ≤ Ω) {E : ℝ}
    (hE : E = 256 * K ^ 2 * (2 * ε₀ + η * √((2 ^ n : Nat) : ℝ))) (hk : ds.length * E ≤ 1)
    (hΩ : ((1 : ℝ) + u) ^ (2 ^ n + 2) * (4 + 2 * ((2 ^ n : ℕ) : ℝ) * η) ≤ Ω) (m m' : U64 → Cx F)
    (hm : stateNorm (2 ^ n) (fun j => cval val (m j)) = 1) (hr : GatesRunF lib L n gs m m')
    (hsmall : drawErr u η (2 ^ n) 4 + 3 * (ds.length * E) ≤ 1 / 2) {s : List F} (hs : StackedProbF n m' s)
    (hd : UniformDraws μ fun p : ℕ × ℕ => draws p.1 p.2) :
    ∃ q, SampledBy μ draws (2 ^ n) (SamplesFrom lib gt (2 ^ n) s) q ∧
      ∀ k, k < 2 ^ n → |q k - Complex.normSq (exactRun ds (fun j => cval val (m j)) (BitVec.ofNat 64 k))| ≤
        7 * drawErr u η (2 ^ n) 4 + 24 * (ds.length * E) := by
  have hn : n ≤ 63 := by have := hf.qubits; omega
  have hu0 := A.u_nonneg
  have hη0 := A.eta_nonneg
  have hw0 := A.w_nonneg
  obtain ⟨m₁, h1, -, h2⟩ := C67_circuit A hε h4 hb hdd hu hf hq hK hKε hKΩ hE hk m hm.le
  cases gatesRunF_unique hr h1
  have hφ := (exactRun_norm hn hb (fun d h => ⟨(hdd d h).args, hu d h, hq d h⟩) (fun j => cval val (m j))).trans hm
  obtain ⟨g1, g2, g3⟩ := computed_state hn hk hφ.le h2
  set P := normSq (2 ^ n) fun j => cval val (m' j) with hP
  set φ := exactRun ds fun j => cval val (m j)
  have hφ1 : normSq (2 ^ n) φ = 1 := by
    have h : √(normSq (2 ^ n) φ) = 1 := hφ
    rwa [Real.sqrt_eq_one] at h
  have hP0 : 0 ≤ P := Finset.sum_nonneg fun _ _ => Complex.normSq_nonneg _
  have hδ : |P - 1| ≤ 3 * (ds.length * E) := by
    have := (prob_diff hn (fun j => cval val (m' j)) φ (fun _ => true)).trans g1
    simp only [if_true] at this
    rw [← hφ1]
    exact this
  have herr : drawErr u η (2 ^ n) P ≤ drawErr u η (2 ^ n) 4 := add_le_add (sumErr_mono hu0 hη0 le_rfl g2 (by norm_num)) le_rfl
  obtain ⟨q, h3, h5⟩ := C76_sampling A Z C (by linarith) (by linarith) hn g3 hP (le_trans (mul_le_mul_of_nonneg_left (by linarith) (by positivity)) hΩ) hδ rfl
    (by linarith) hs hd
  refine ⟨q, h3, fun k hk' => ?_⟩
  have h6 := h5 k hk'
  have h7 : |Complex.normSq (cval val (m' (BitVec.ofNat 64 k))) - Complex.normSq (φ (BitVec.ofNat 64 k))| ≤ 3 * (ds.length * E) := by
    have := (prob_diff hn (fun j => cval val (m' j)) φ (fun j => decide (j = BitVec.ofNat 64 k))).trans g1
    have hmem : BitVec.ofNat 64 k ∈ indices (2 ^ n) := (mem_indices (pow64 hn)).2 (by rw [toNat_ofNat_pow hn hk']; exact hk')
    simpa [Finset.sum_ite_eq, hmem] using this
  have := abs_sub_le (q k) (Complex.normSq (cval val (m' (BitVec.ofNat 64 k)))) (Complex.normSq (φ (BitVec.ofNat 64 k)))
  linarith

end

/-! ## agreement with the exact model -/

open Classical in
/-- **C76 (exact arithmetic).** With real numbers there is exactly one table, and `sampling` is the one described in C34 and C75. -/
theorem C76_exact {n : Nat} (hn : n ≤ 63) (ψ : U64 → ℂ) (count : Nat) (rnd : ℕ → ℕ → ℝ) (final : List Nat) :
    SamplesF exactLib (fun x y : ℝ => decide (x > y)) n ψ count rnd final ↔ Samples n ψ count rnd final := by
  have hitems : scanItems n ψ = .ok ((List.range (2 ^ n)).map fun i => Complex.normSq (ψ (BitVec.ofNat 64 i))) := by
    refine mapM_each_ok fun i hi => ?_
    rw [readSqF_exact]
    unfold readSq
    rw [readAt_ok (by rw [toNat_ofNat_pow hn (List.mem_range.1 hi)]; exact List.mem_range.1 hi)]
    rfl
  have htable : ∀ s : List ℝ, StackedProbF n ψ s ↔ s = stackedProb n ψ := by
    intro s
    have hsum : ∀ i, i < 2 ^ n → (((List.range (2 ^ n)).map fun i => Complex.normSq (ψ (BitVec.ofNat 64 i))).take (i + 1)).sum = cumProb ψ (i + 1) := by
      intro i hi
      rw [List.map_take.symm, List.take_range, min_eq_left (show i + 1 ≤ 2 ^ n from hi), sum_map_range]
      rfl
    constructor
    · rintro ⟨xs, hx, hl, h0, hstep⟩
      rw [hitems] at hx
      cases hx
      refine List.ext_getElem? fun i => ?_
      by_cases hi : i ≤ 2 ^ n
      · have hlt : i < s.length := by rw [hl]; simp; omega
        have hg := List.getElem?_eq_getElem hlt
        rw [stackedProb_get n ψ hi, hg]
        congr 1
        cases i with
        | zero => rw [hg] at h0; rw [Option.some.inj h0]; simp [cumProb]
        | succ i => rw [reducesTo_exact.1 (hstep i _ hg), hsum i (by omega)]
      · rw [List.getElem?_eq_none (by rw [hl]; simp; omega), List.getElem?_eq_none (by rw [stackedProb_length]; omega)]
    · rintro rfl
      refine ⟨_, hitems, by simp [stackedProb_length], by rw [stackedProb_get n ψ (Nat.zero_le _)]; simp [cumProb], fun i y hy => ?_⟩
      have hi : i < 2 ^ n := by
        have := (List.getElem?_eq_some_iff.1 hy).1
        rw [stackedProb_length] at this
        omega
      rw [stackedProb_get n ψ (by omega), Option.some.injEq] at hy
      rw [reducesTo_exact, hsum i hi, hy]
  have hsearch : ∀ (s : List ℝ) (r : ℝ) (lo hi : Nat), searchLoopF (fun x y : ℝ => decide (x > y)) s r lo hi = searchLoop s r lo hi := by
    intro s r lo hi
    induction h : hi - lo using Nat.strong_induction_on generalizing lo hi with
    | _ d ih =>
      rw [searchLoopF, searchLoop]
      by_cases hd : hi - lo > 1
      · rw [dif_pos hd, dif_pos hd]
        cases s[(lo + hi) / 2]? with
        | none => rfl
        | some x =>
          simp only [decide_eq_true_eq]
          split
          · exact ih _ (by omega) _ _ rfl
          · exact ih _ (by omega) _ _ rfl
      · rw [dif_neg hd, dif_neg hd]
  have hdraw : (fun _ : ℕ => fun r => drawIndexF (fun x y : ℝ => decide (x > y)) (stackedProb n ψ) (exactLib.cast r)) =
      fun _ : ℕ => drawIndex (stackedProb n ψ) := by
    funext _ r
    exact hsearch _ _ _ _
  unfold SamplesF
  simp only [htable, exists_eq_left]
  unfold SamplesFrom Samples
  rw [hdraw]

/-! ## an index that cannot occur -/

/-- the comparison of double precision numbers -/
noncomputable def binGt : Bin → Bin → Bool := fun x y => decide (y.val < x.val)

/-- a state of three qubits with the amplitudes `1/2, 0, c, c, 0, 0, (1 + i)/2, 1/2`, where `c = 2⁻²⁸ + 2⁻²⁹ i` -/
def gapState : U64 → Cx Bin := fun j =>
  if j = 0 ∨ j = 7 then ⟨binPow (-1), 0⟩ else if j = 2 ∨ j = 3 then ⟨binPow (-28), binPow (-29)⟩
  else if j = 6 then ⟨binPow (-1), binPow (-1)⟩ else 0

/-- what work item `i` contributes -/
noncomputable def gapItem (i : Nat) : Bin := squaredC (gapState (BitVec.ofNat 64 i))

/-- the work items of four threads -/
noncomputable def gapBlocks : List (List Bin) := [[gapItem 0, gapItem 1], [gapItem 2, gapItem 3], [gapItem 4, gapItem 5], [gapItem 6, gapItem 7]]

theorem binMul_zero : ((0 : Bin) * 0).val = 0 := by
  show (Bin.near ((0 : Bin).val * (0 : Bin).val)).val = 0; rw [Bin.val_zero, mul_zero, Bin.near_zero, Bin.val_zero]

theorem binAdd_zero {x y : Bin} (h : y.val = 0) : (x + y).val = x.val := (bin_addZero |x.val|).right _ _ h le_rfl
theorem binZero_add {x y : Bin} (h : x.val = 0) : (x + y).val = y.val := (bin_addZero |y.val|).left _ _ h le_rfl

theorem binPow_mul (a b : ℤ) : (binPow a * binPow b).val = (2 : ℝ) ^ (a + b) := by
  show (Bin.near ((binPow a).val * (binPow b).val)).val = _
  rw [binPow_val, binPow_val, ← zpow_add₀ (by norm_num), ← binPow_val, near_val, binPow_val]

theorem gapItem_vals : (gapItem 0).val = 1 / 4 ∧ (gapItem 1).val = 0 ∧ (gapItem 2).val = 5 * (2 : ℝ) ^ (-58 : ℤ) ∧
    (gapItem 3).val = 5 * (2 : ℝ) ^ (-58 : ℤ) ∧ (gapItem 4).val = 0 ∧ (gapItem 5).val = 0 := by
  have hz : (squaredC (0 : Cx Bin) : Bin).val = 0 := by
    show ((0 : Bin) * 0 + 0 * 0).val = 0
    rw [binAdd_zero binMul_zero, binMul_zero]
  have hs : (squaredC (⟨binPow (-28), binPow (-29)⟩ : Cx Bin) : Bin).val = 5 * (2 : ℝ) ^ (-58 : ℤ) := by
    show (binPow (-28) * binPow (-28) + binPow (-29) * binPow (-29)).val = _
    show (Bin.near ((binPow (-28) * binPow (-28)).val + (binPow (-29) * binPow (-29)).val)).val = _
    rw [binPow_mul, binPow_mul]
    have : (2 : ℝ) ^ (-28 + -28 : ℤ) + (2 : ℝ) ^ (-29 + -29 : ℤ) = (⟨5, -58, by norm_num⟩ : Bin).val := by
      show _ = ((5 : ℤ) : ℝ) * (2 : ℝ) ^ (-58 : ℤ)
      norm_num
    rw [this, near_val]
    show ((5 : ℤ) : ℝ) * (2 : ℝ) ^ (-58 : ℤ) = _
    norm_num
  refine ⟨?_, hz, hs, hs, hz, hz⟩
  show (binPow (-1) * binPow (-1) + (0 : Bin) * 0).val = _
  rw [binAdd_zero binMul_zero, binPow_mul]
  norm_num

theorem gap_draw {a0 a1 a2 a3 a4 a5 a6 a7 a8 r : Bin} (h4 : binGt a4 r = false) (h5 : binGt a5 r = true) (h6 : binGt a6 r = true) :
    drawIndexF binGt [a0, a1, a2, a3, a4, a5, a6, a7, a8] r = .ok 4 := by
  simp [drawIndexF, searchLoopF, h4, h5, h6]

/-- **C76 (an amplitude that is zero).** With four threads an index whose amplitude is exactly zero can be returned: the partial sums of a
thread are not those from which the offset of the next thread is computed.  (No ties occur in the additions that matter.) -/
theorem C76_zero_returned : scanItems 3 gapState = .ok gapBlocks.flatten ∧ cval Bin.val (gapState 4) = 0 ∧
    SamplesFrom Bin.lib binGt (2 ^ 3) (0 :: blockScan 0 gapBlocks) 1 (fun _ _ => 1 / 4) [4] := by
  obtain ⟨v0, v1, v2, v3, v4, v5⟩ := gapItem_vals
  refine ⟨scanItems_ok (by norm_num) gapState, ?_, ?_⟩
  · apply Complex.ext
    · show (0 : Bin).val = 0; exact Bin.val_zero
    · show (0 : Bin).val = 0; exact Bin.val_zero
  have hadd : ∀ x y : Bin, (x + y).val = (Bin.near (x.val + y.val)).val := fun _ _ => rfl
  have hcast : (Bin.lib.cast (1 / 4)).val = 1 / 4 := by
    show (Bin.near (1 / 4)).val = _
    have : (1 / 4 : ℝ) = (binPow (-2)).val := by rw [binPow_val]; norm_num
    rw [this, near_val]
  have small : (Bin.near (1 / 4 + 5 * (2 : ℝ) ^ (-58 : ℤ))).val = 1 / 4 := by
    rw [near_of (k := -2) (m := 2 ^ 52) (by norm_num) (by norm_num) (by norm_num) (by norm_num)]
    norm_num
  have two : (Bin.near (5 * (2 : ℝ) ^ (-58 : ℤ) + 5 * (2 : ℝ) ^ (-58 : ℤ))).val = 5 * (2 : ℝ) ^ (-57 : ℤ) := by
    have : 5 * (2 : ℝ) ^ (-58 : ℤ) + 5 * (2 : ℝ) ^ (-58 : ℤ) = (⟨5, -57, by norm_num⟩ : Bin).val := by
      show _ = ((5 : ℤ) : ℝ) * (2 : ℝ) ^ (-57 : ℤ)
      norm_num
    rw [this, near_val]
    show ((5 : ℤ) : ℝ) * (2 : ℝ) ^ (-57 : ℤ) = _
    norm_num
  have big : (Bin.near (1 / 4 + 5 * (2 : ℝ) ^ (-57 : ℤ))).val = 1 / 4 + (2 : ℝ) ^ (-54 : ℤ) := by
    rw [near_of (k := -2) (m := 2 ^ 52 + 1) (by norm_num) (by norm_num) (by norm_num) (by norm_num [abs_lt])]
    norm_num
  have hz := Bin.val_zero
  -- the offset of the second and of the third thread
  have o1 : (0 + blockTotal [gapItem 0, gapItem 1]).val = 1 / 4 := by
    show (0 + (0 + gapItem 0 + gapItem 1)).val = _
    rw [binZero_add hz, binAdd_zero v1, binZero_add hz, v0]
  have o2 : (0 + blockTotal [gapItem 0, gapItem 1] + blockTotal [gapItem 2, gapItem 3]).val = 1 / 4 + (2 : ℝ) ^ (-54 : ℤ) := by
    have : (blockTotal [gapItem 2, gapItem 3]).val = 5 * (2 : ℝ) ^ (-57 : ℤ) := by
      show (0 + gapItem 2 + gapItem 3).val = _
      rw [hadd, binZero_add hz, v2, v3, two]
    rw [hadd, o1, this, big]
  have s4 : (0 + blockTotal [gapItem 0, gapItem 1] + gapItem 2 + gapItem 3).val = 1 / 4 := by
    rw [hadd, hadd (0 + blockTotal [gapItem 0, gapItem 1]), o1, v2, v3, small, small]
  refine ⟨Function.update (fun _ => 0) 0 4, .step 0 0 [] [] _ (Function.update (fun _ => 0) 0 4) _ ?_ (.done _ _), by simp⟩
  simp only [sampleRound]
  have : drawIndexF binGt (0 :: blockScan 0 gapBlocks) (Bin.lib.cast (1 / 4)) = .ok 4 := by
    refine gap_draw ?_ ?_ ?_
    · simp only [binGt, hcast, s4]; simp
    · simp only [binGt, hcast, binAdd_zero v4, o2]; norm_num
    · simp only [binGt, hcast, binAdd_zero v5, binAdd_zero v4, o2]; norm_num
  rw [this]
  simp [ok_bind]

/-! ## examples: double precision -/

theorem gap_sq (j : U64) : Complex.normSq (cval Bin.val (gapState j)) = if j = 0 ∨ j = 7 then 1 / 4 else
    if j = 2 ∨ j = 3 then 5 * (2 : ℝ) ^ (-58 : ℤ) else if j = 6 then 1 / 2 else 0 := by
  have hz := Bin.val_zero
  unfold gapState
  split
  · rw [Complex.normSq_apply]
    show (binPow (-1)).val * (binPow (-1)).val + (0 : Bin).val * (0 : Bin).val = _
    rw [binPow_val, hz]; norm_num
  · split
    · rw [Complex.normSq_apply]
      show (binPow (-28)).val * (binPow (-28)).val + (binPow (-29)).val * (binPow (-29)).val = _
      rw [binPow_val, binPow_val]; norm_num
    · split
      · rw [Complex.normSq_apply]
        show (binPow (-1)).val * (binPow (-1)).val + (binPow (-1)).val * (binPow (-1)).val = _
        rw [binPow_val]; norm_num
      · rw [Complex.normSq_apply]
        show (0 : Bin).val * (0 : Bin).val + (0 : Bin).val * (0 : Bin).val = _
        rw [hz]; norm_num

theorem gap_amp (j : U64) : ‖cval Bin.val (gapState j)‖ ≤ 4 := by
  have h : Complex.normSq (cval Bin.val (gapState j)) ≤ 1 := by
    rw [gap_sq]
    split
    · norm_num
    · split
      · norm_num
      · split <;> norm_num
  rw [Complex.normSq_eq_norm_sq] at h
  nlinarith [norm_nonneg (cval Bin.val (gapState j))]

theorem gap_normSq : normSq (2 ^ 3) (fun j => cval Bin.val (gapState j)) = 1 + 5 * (2 : ℝ) ^ (-57 : ℤ) := by
  rw [normSq, sum_indices (by norm_num)]
  simp only [gap_sq, show 2 ^ 3 = 8 from rfl, Finset.sum_range_succ, Finset.sum_range_zero]
  simp
  norm_num

/-- The state above and any table that the scan can leave for it: all samples are distributed as they should be up to `2⁻⁴⁵`. -/
example : ∃ μ : Measure (ℕ × ℕ → ℝ), ∀ s, StackedProbF 3 gapState s →
    ∃ q, SampledBy μ (fun k i ω => ω (k, i)) (2 ^ 3) (SamplesFrom Bin.lib binGt (2 ^ 3) s) q ∧
      ∀ k, k < 2 ^ 3 → |q k - Complex.normSq (cval Bin.val (gapState (BitVec.ofNat 64 k)))| ≤ 2⁻¹ ^ 45 := by
  obtain ⟨μ, h⟩ := poolDraws_exist
  refine ⟨μ, fun s hs => ?_⟩
  obtain ⟨q, h1, h2⟩ := C76_sampling (μ := μ) (draws := fun k i ω => ω (k, i)) (Bin.accurate (Ω := 64) le_rfl) (bin_addZero 64) (bin_compares 64) (by norm_num) (by norm_num)
    (by norm_num) (fun j _ => gap_amp j) gap_normSq.symm (by norm_num) (δ := 5 * (2 : ℝ) ^ (-57 : ℤ)) (by norm_num) rfl
    (by unfold drawErr sumErr; norm_num) hs h
  refine ⟨q, h1, fun k hk => (h2 k hk).trans ?_⟩
  unfold drawErr sumErr
  norm_num

/-- With two threads index 4 is not returned, whatever the random numbers are. -/
example (rnd : ℕ → ℕ → ℝ) (hr : ∀ k i, 0 ≤ rnd k i ∧ rnd k i < 1) (count : Nat) (ks : List Nat)
    (h : SamplesFrom Bin.lib binGt (2 ^ 3) (0 :: blockScan 0 [[gapItem 0, gapItem 1, gapItem 2, gapItem 3], [gapItem 4, gapItem 5, gapItem 6, gapItem 7]])
      count rnd ks) : 4 ∉ ks := by
  refine C76_zero (Bin.accurate (Ω := 64) le_rfl) (bin_addZero 64) (bin_compares 64) (by norm_num) (by norm_num)
    (by norm_num) (fun j _ => gap_amp j) gap_normSq.symm (by norm_num) (scanItems_ok (by norm_num) gapState) hr h (by norm_num) C76_zero_returned.2.1 ?_
  intro j hj hlt
  simp only [List.length_cons, List.length_nil] at hlt
  omega

/-- and all indices returned are valid -/
example (rnd : ℕ → ℕ → ℝ) (hr : ∀ k i, 0 ≤ rnd k i ∧ rnd k i < 1) (ks : List Nat) (h : SamplesF Bin.lib binGt 3 gapState 10 rnd ks) :
    ks.length = 10 ∧ ∀ k ∈ ks, k < 2 ^ 3 :=
  C76_valid (Bin.accurate (Ω := 64) le_rfl) (bin_addZero 64) (bin_compares 64) (by norm_num) (by norm_num)
    (by norm_num) (fun j _ => gap_amp j) gap_normSq.symm (by norm_num) hr h

/-- Two slots with this state. -/
example : ∃ (μ : Measure (ℕ × ℕ → ℝ)) (q : ℕ → ℕ → ℝ), ∀ k : ℕ → ℕ → ℕ, (∀ b i, k b i < 2 ^ 3) → ∃ s, (∀ b, HostStackedProbF 3 gapState (s b)) ∧
    μ.real {ω | BatchSamplesFrom Bin.lib binGt (2 ^ 3) 2 s 5 (fun k i => ω (k, i)) ((List.range 2).map fun b => (List.range 5).map fun i => k b i)} =
      ∏ b ∈ Finset.range 2, ∏ i ∈ Finset.range 5, q b (k b i) := by
  obtain ⟨μ, h⟩ := poolDraws_exist
  obtain ⟨⟨s, hs⟩, ht⟩ := C76_tables (n := 3) (by norm_num) gapState
  obtain ⟨q, -, h2⟩ := C76_batched (μ := μ) (draws := fun k i ω => ω (k, i)) (Bin.accurate (Ω := 64) le_rfl) (bin_addZero 64) (bin_compares 64) (by norm_num) (by norm_num)
    (size := 2) (n := 3) (by norm_num) (m := fun _ => gapState) (fun _ j _ => gap_amp j) (by rw [gap_normSq]; norm_num)
    (δ := 5 * (2 : ℝ) ^ (-57 : ℤ)) (by rw [gap_normSq]; norm_num) (ε := 1 / 4) (by rw [gap_normSq]; unfold drawErr sumErr; norm_num)
    (by norm_num) (s := fun _ => s) (fun _ => ht s hs) h
  exact ⟨μ, q, fun k hk => ⟨fun _ => s, fun _ => hs, h2 5 k hk⟩⟩

/-- The maximally mixed qubit. -/
example : ∃ μ : Measure (ℕ × ℕ → ℝ), ∀ s : List Bin, DMStackedProbF 1 (fun p : U64 × U64 => if p.1 = p.2 then (⟨binPow (-1), 0⟩ : Cx Bin) else 0) s →
    ∃ q, SampledBy μ (fun k i ω => ω (k, i)) (2 ^ 1) (SamplesFrom Bin.lib binGt (2 ^ 1) s) q ∧ ∀ k, k < 2 ^ 1 → |q k - 1 / 2| ≤ 2⁻¹ ^ 48 := by
  obtain ⟨μ, h⟩ := poolDraws_exist
  refine ⟨μ, fun s hs => ?_⟩
  have hv : (binPow (-1)).val = 1 / 2 := by rw [binPow_val]; norm_num
  obtain ⟨q, h1, h2⟩ := C76_density (μ := μ) (draws := fun k i ω => ω (k, i)) (Bin.accurate (Ω := 64) le_rfl) (bin_addZero 64) (bin_compares 64) (by norm_num) (by norm_num)
    (ρ := fun p : U64 × U64 => if p.1 = p.2 then (⟨binPow (-1), 0⟩ : Cx Bin) else 0) (n := 1) (P := 1) (δ := 0) (by simp [hv])
    (by simp [hv]) (by norm_num) (by norm_num) rfl (by norm_num) hs h
  refine ⟨q, h1, fun k hk => ?_⟩
  have := h2 k hk
  simp only [if_true, hv] at this
  refine this.trans ?_
  norm_num

/-- The sample circuit of C67 on a state of norm one, followed by `sampling`: the probabilities are correct up to `2⁻³⁵`. -/
example : ∃ μ : Measure (ℕ × ℕ → ℝ), ∃ gs, List.Forall₂ (fun d g => GateDesc.build d = .ok g) sampleGates gs ∧ ∀ m m' : U64 → Cx Bin,
    stateNorm (2 ^ 2) (fun j => cval Bin.val (m j)) = 1 → GatesRunF Bin.lib 8 2 gs m m' → ∀ s, StackedProbF 2 m' s →
      ∃ q, SampledBy μ (fun k i ω => ω (k, i)) (2 ^ 2) (SamplesFrom Bin.lib binGt (2 ^ 2) s) q ∧
        ∀ k, k < 2 ^ 2 → |q k - Complex.normSq (exactRun sampleGates (fun j => cval Bin.val (m j)) (BitVec.ofNat 64 k))| ≤ 2⁻¹ ^ 34 := by
  obtain ⟨μ, h⟩ := poolDraws_exist
  obtain ⟨gs, hb⟩ := sampleGates_built
  refine ⟨μ, gs, hb, fun m m' hm hr s hs => ?_⟩
  have hf : Fits 8 1 2 := ⟨Or.inr ⟨3, by norm_num, by norm_num⟩, by norm_num, by norm_num⟩
  have F := sampleGates_facts
  have hl : sampleGates.length = 3 := rfl
  obtain ⟨q, h1, h2⟩ := C76_circuit (μ := μ) (draws := fun k i ω => ω (k, i)) (Bin.accurate le_rfl) (bin_addZero 64) (bin_compares 64) (ε₀ := 2⁻¹ ^ 50) (by norm_num) (by norm_num) hb
    (fun d h => (F d h).1) (fun d h => (F d h).2.1) hf (fun d h => (F d h).2.2.2) (K := 1) (fun d h => (F d h).2.2.1) (by norm_num)
    (by norm_num) rfl (by rw [hl]; norm_num) (by norm_num) m m' hm hr (by rw [hl]; unfold drawErr sumErr; norm_num) hs h
  refine ⟨q, h1, fun k hk => (h2 k hk).trans ?_⟩
  rw [hl]; unfold drawErr sumErr; norm_num

end Verif.Props
