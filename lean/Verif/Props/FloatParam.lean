import Verif.Proofs.FloatParam
import Verif.Props.Rounding

/-! # C92: parametric rotations and circuits with parameters in floating-point arithmetic

`PRot.updateF`, `PRot.BatchRunF` and `ItemsRunF` (`Model/FloatParam.lean`) are the updates of one state and of a batch by a
parametric rotation, and of one state by a circuit with parameters.  As for C67-C69 the specification is the operator of the gate
`r.at t` with the angle `coefficient * parameter` on exact amplitudes and the Euclidean norm.
-/

namespace Verif.Props
open Verif Verif.Spec Verif.Model Verif.Proofs
attribute [-simp] BitVec.getLsbD_eq_getElem

section
variable {F : Type} [_root_.Zero F] [One F] [Add F] [Sub F] [Mul F] [Neg F] {lib : FloatLib F} {val : F → ℝ} {u w η Ω ε : ℝ}

/-- **C92, one state.** The angle is a rounded product of two rounded numbers; the update by a parametric rotation has, under
every schedule, one outcome, which differs from the rotation by the angle `coefficient * parameter` by at most
`256 (ε |ψ| + η √dim)`. -/
theorem C92_single (A : Accurate lib val u w η Ω) (h4 : ε ≤ 1 / 400) {r : RotDesc} {p : PRot} (h : r.build = .ok p) {t : ℝ}
    (hr : RotBounded u w η ε r t) {L n : Nat} (hf : Fits L 1 n) (hq : ∀ q ∈ qubitsOf (r.at t), q < n) :
    ∃ dev, p.updateF lib L n t = .ok dev ∧ ∀ m : U64 → Cx F, (∀ j, InState (2 ^ n) j → ‖cval val (m j)‖ ≤ 4) →
      ∃ m', DRuns (2 ^ n) dev m m' ∧ (∀ m'', DRuns (2 ^ n) dev m m'' → m'' = m') ∧
        stateNorm (2 ^ n) (fun j => cval val (m' j) - operatorOf (r.at t) (fun j => cval val (m j)) j) ≤
          256 * (ε * stateNorm (2 ^ n) (fun j => cval val (m j)) + η * √((2 ^ n : Nat) : ℝ)) := by
  have hq0 : ∀ q ∈ qubitsOf (r.at 0), q < n := by rw [← rot_qubits r t]; exact hq
  obtain ⟨dev, dev', e1, e2, hc⟩ := prot_close A h4 h hr hf.lanes hf.qubits hq0
  refine ⟨dev, e1, fun m hm => ?_⟩
  obtain ⟨m', h1, h2⟩ := close_operator (rot_descOK r t) (rot_build h t) hf.lanes hf.qubits hq e2 hc m hm
  exact ⟨m', h1, fun m'' h'' => DRuns.unique h'' h1, h2⟩

/-- **C92, batches.** On a batch every state is rotated by its own parameter with the same error bound; the batch has, under every
schedule, one outcome. -/
theorem C92_batch (A : Accurate lib val u w η Ω) (h4 : ε ≤ 1 / 400) {r : RotDesc} {p : PRot} (h : r.build = .ok p) {B n : Nat}
    (hf : Fits 0 B n) {params : List ℝ} (hl : params.length = B) (hr : ∀ t ∈ params, RotBounded u w η ε r t)
    (hq : ∀ t, ∀ q ∈ qubitsOf (r.at t), q < n) (m : Nat → U64 → Cx F)
    (hm : ∀ b, b < B → ∀ j, InState (2 ^ n) j → ‖cval val (m b j)‖ ≤ 4) :
    ∃ m', p.BatchRunF lib B n params m m' ∧ (∀ m'', p.BatchRunF lib B n params m m'' → m'' = m') ∧
      (∀ b, B ≤ b → m' b = m b) ∧ ∀ b t, b < B → params[b]? = some t →
        stateNorm (2 ^ n) (fun j => cval val (m' b j) - operatorOf (r.at t) (fun j => cval val (m b j)) j) ≤
          256 * (ε * stateNorm (2 ^ n) (fun j => cval val (m b j)) + η * √((2 ^ n : Nat) : ℝ)) := by
  have hn := hf.qubits
  have step : ∀ b : Fin B, ∃ m', Runs (InState (2 ^ n)) (p.launchF (R := Cx F) lib n (params[b.val]'(by omega))).pool (m b) m' ∧
      stateNorm (2 ^ n) (fun j => cval val (m' j) - operatorOf (r.at (params[b.val]'(by omega))) (fun j => cval val (m b j)) j) ≤
        256 * (ε * stateNorm (2 ^ n) (fun j => cval val (m b j)) + η * √((2 ^ n : Nat) : ℝ)) := by
    intro b
    obtain ⟨dev', e2, hc⟩ := protLaunch_close (lib := lib) (F := F) A h4 h (hr _ (List.getElem_mem (show b.val < params.length by omega))) hn (hq 0)
    exact close_operator (rot_descOK r _) (rot_build h _) (.inl rfl) hn (hq _) e2 hc (m b) (hm b b.isLt)
  choose f hf1 hf2 using step
  let m' : Nat → U64 → Cx F := fun b => if hb : b < B then f ⟨b, hb⟩ else m b
  have hout : ∀ b, B ≤ b → m' b = m b := fun b hb => dif_neg (by omega)
  have hin : ∀ b : Fin B, m' b = f b := fun b => dif_pos b.isLt
  have hrun : p.BatchRunF lib B n params m m' :=
    ⟨rot_bounds h hn (hq 0), by omega, slots_run le_rfl (fun b => by rw [hin]; exact hf1 b) hout⟩
  refine ⟨m', hrun, ?_, hout, ?_⟩
  · rintro m'' ⟨_, _, h3⟩
    obtain ⟨_, _, h4⟩ := hrun
    have := Runs.unique h3 h4
    funext b j
    exact congrFun this (b, j)
  · intro b t hb ht
    have e := hf2 ⟨b, hb⟩
    have e1 : params[b]'(by omega) = t := by
      rw [List.getElem?_eq_getElem (by omega)] at ht
      injection ht
    rw [e1] at e
    rw [hin ⟨b, hb⟩]
    exact e

/-- the conditions of C92 on a line of a circuit with parameters `params` -/
def LineBounded (u w η Ω ε K : ℝ) (params : String → Option ℝ) : FLine → Prop
  | .gate d => Bounded u w η Ω ε d ∧ UnitaryDesc d ∧ terms d ≤ K
  | .rot r key => ∀ t, params key = some t → RotBounded u w η ε r t

/-- what the items of a circuit do, as relations -/
def itemStep (lib : FloatLib F) (L n : Nat) (params : String → Option ℝ) : UGate ⊕ PRot × String → (U64 → Cx F) → (U64 → Cx F) → Prop
  | .inl g, m, m' => ∃ d, g.updateF lib L 1 n = .ok d ∧ DRuns (1 * 2 ^ n) d m m'
  | .inr (r, key), m, m' => ∃ t d, params key = some t ∧ r.updateF lib L n t = .ok d ∧ DRuns (1 * 2 ^ n) d m m'

theorem runs_items {L n : Nat} {params : String → Option ℝ} {gs : List (UGate ⊕ PRot × String)} {m m' : U64 → Cx F}
    (h : RunSteps (gs.map (itemStep lib L n params)) m m') : ItemsRunF lib L n params gs m m' := by
  induction gs generalizing m with
  | nil => exact h
  | cons g gs ih =>
    obtain ⟨m₁, h1, h2⟩ := h
    cases g with
    | inl g =>
      obtain ⟨d, hd, hr⟩ := h1
      exact ⟨d, m₁, hd, hr, ih h2⟩
    | inr rk =>
      obtain ⟨r, key⟩ := rk
      obtain ⟨t, d, ht, hd, hr⟩ := h1
      exact ⟨t, d, m₁, ht, hd, hr, ih h2⟩

/-- **C92, circuits.** The error of a circuit of `k` unitary gates and parametric rotations on a state of norm at most one is at
most `k E` with `E = 256 K² (2 ε + η √dim)`, as long as `k E ≤ 1`. -/
theorem C92_circuit (A : Accurate lib val u w η Ω) (hε : u + η + w ≤ ε) (h4 : ε ≤ 1 / 400) {ls : List FLine}
    {gs : List (UGate ⊕ PRot × String)} (hb : List.Forall₂ FLine.Built ls gs) {params : String → Option ℝ} {ds : List GateDesc}
    (hd : List.Forall₂ (FLine.Is params) ls ds) {K : ℝ} (hK1 : 1 ≤ K) (hls : ∀ l ∈ ls, LineBounded u w η Ω ε K params l) {L n : Nat}
    (hf : Fits L 1 n) (hq : ∀ d ∈ ds, ∀ q ∈ qubitsOf d, q < n) (hKε : K * ε ≤ 1 / 400) (hKΩ : 16 * K ≤ Ω) {E : ℝ}
    (hE : E = 256 * K ^ 2 * (2 * ε + η * √((2 ^ n : Nat) : ℝ))) (hk : ls.length * E ≤ 1) (m : U64 → Cx F)
    (hm : stateNorm (2 ^ n) (fun j => cval val (m j)) ≤ 1) :
    ∃ m', ItemsRunF lib L n params gs m m' ∧ (∀ m'', ItemsRunF lib L n params gs m m'' → m'' = m') ∧
      stateNorm (2 ^ n) (fun j => cval val (m' j) - exactRun ds (fun j => cval val (m j)) j) ≤ ls.length * E := by
  have hn := hf.qubits
  have hu0 := A.u_nonneg
  have hη0 := A.eta_nonneg
  have hw0 := A.w_nonneg
  have hε0 : 0 ≤ ε := by linarith
  have hsq := Real.sqrt_nonneg ((2 ^ n : Nat) : ℝ)
  have hE0 : 0 ≤ E := by rw [hE]; positivity
  have hKK : 1 ≤ K ^ 2 := one_le_pow₀ hK1
  have hsteps : List.Forall₂ (StepClose val n fun x => 256 * K ^ 2 * (ε * x + η * √((2 ^ n : Nat) : ℝ)))
      (gs.map (itemStep lib L n params)) ds := by
    clear hm hk
    induction hb generalizing ds with
    | nil => cases hd; exact .nil
    | @cons l g ls gs hlg _ ih =>
      cases hd with
      | @cons _ d _ ds hld hds =>
      refine .cons ?_ (ih hds (fun l hl => hls l (List.mem_cons_of_mem _ hl)) (fun d hd => hq d (List.mem_cons_of_mem _ hd)))
      have hl := hls l List.mem_cons_self
      have hqd := hq d List.mem_cons_self
      cases l with
      | gate d' =>
        obtain rfl : d = d' := hld
        cases g with
        | inr rk => exact hlg.elim
        | inl g =>
          obtain ⟨hB, hU, hT⟩ := hl
          have hbg : d.build = .ok g := hlg
          refine ⟨fun ψ => vec_operator_norm hB.args hU hbg (by omega) hqd ψ, fun m hm => ?_⟩
          obtain ⟨dev, hdev, hr⟩ := C67_gate A hε h4 hB hbg hf hqd
          obtain ⟨m', h1, -, h2⟩ := hr m (by rw [Nat.one_mul]; exact hm)
          refine ⟨m', ⟨dev, hdev, h1⟩, ?_⟩
          rw [Nat.one_mul, stateNorm, stateNorm, sqrt_normSq (by omega), sqrt_normSq (by omega), vec_sub] at h2
          refine h2.trans ?_
          have h3 : terms d ^ 2 ≤ K ^ 2 := pow_le_pow_left₀ (le_trans zero_le_one (terms_ge d)) hT 2
          exact mul_le_mul_of_nonneg_right (by linarith) (by positivity)
      | rot r key =>
        obtain ⟨t, ht, rfl⟩ := hld
        cases g with
        | inl g => exact hlg.elim
        | inr rk =>
          obtain ⟨p, key'⟩ := rk
          obtain ⟨hbp, rfl⟩ := hlg
          have hu : UnitaryDesc (r.at t) := by
            cases r with
            | axis a q k cs vs => rw [rot_at_axis]; cases a <;> exact ⟨fun e => (by cases e), fun e => (by cases e)⟩
            | pauli q k cs vs => exact (hl t ht).coef.1
          refine ⟨fun ψ => vec_operator_norm (rot_descOK r t) hu (rot_build hbp t) (by omega) hqd ψ, fun m hm => ?_⟩
          obtain ⟨dev, hdev, hr⟩ := C92_single A h4 hbp (hl t ht) hf hqd
          obtain ⟨m', h1, -, h2⟩ := hr m hm
          refine ⟨m', ⟨t, dev, ht, hdev, by rw [Nat.one_mul]; exact h1⟩, ?_⟩
          rw [stateNorm, stateNorm, sqrt_normSq (by omega), sqrt_normSq (by omega), vec_sub] at h2
          refine h2.trans ?_
          exact mul_le_mul_of_nonneg_right (by linarith) (by positivity)
  have hlen : ls.length = ds.length := hd.length_eq
  rw [hlen] at hk ⊢
  rw [stateNorm, sqrt_normSq (by omega)] at hm
  obtain ⟨m', h1, h2⟩ := steps_close (E := E) hE0 (fun x hx => by
    rw [hE]
    refine mul_le_mul_of_nonneg_left ?_ (by positivity)
    nlinarith) hsteps m (φ := fun j => cval val (m j)) (e := 0) le_rfl (by simp) hm (by rw [zero_add]; exact hk)
  have h3 := runs_items h1
  refine ⟨m', h3, fun m'' h'' => itemsRunF_unique h'' h3, ?_⟩
  rw [zero_add] at h2
  rw [stateNorm, sqrt_normSq (by omega), vec_sub]
  exact h2

end

/-! ## any arithmetic -/

section
variable {F : Type} [_root_.Zero F] [One F] [Add F] [Sub F] [Mul F] [Neg F]

/-- **C92, determinism.** In any arithmetic whatever a rotation ends, under every schedule, with the same amplitudes bit for bit, on
one state and on a batch. -/
theorem C92_determined (lib : FloatLib F) {r : RotDesc} {p : PRot} (h : r.build = .ok p) {L B n : Nat} (hf : Fits L B n)
    (hq : ∀ t, ∀ q ∈ qubitsOf (r.at t), q < n) :
    (∀ t, ∃ dev, p.updateF lib L n t = .ok dev ∧ ∀ m : U64 → Cx F, ∃ m', DRuns (1 * 2 ^ n) dev m m' ∧
      ∀ m'', DRuns (1 * 2 ^ n) dev m m'' → m'' = m') ∧
    ∀ params : List ℝ, params.length = B → ∀ m : Nat → U64 → Cx F, ∃ m', p.BatchRunF lib B n params m m' ∧
      ∀ m'', p.BatchRunF lib B n params m m'' → m'' = m' := by
  have hn := hf.qubits
  constructor
  · intro t
    obtain ⟨dev, hdev, hr⟩ := prot_total lib h hf.lanes hn (hq 0) t
    refine ⟨dev, hdev, fun m => ?_⟩
    obtain ⟨m', hm'⟩ := hr m
    exact ⟨m', hm', fun m'' h'' => DRuns.unique h'' hm'⟩
  · intro params hl m
    choose f hf1 using fun b : Fin B => protLaunch_total lib h hn (hq 0) (params[b.val]'(by omega)) (m b)
    let m' : Nat → U64 → Cx F := fun b => if hb : b < B then f ⟨b, hb⟩ else m b
    have hrun : p.BatchRunF lib B n params m m' :=
      ⟨rot_bounds h hn (hq 0), by omega, slots_run le_rfl
        (fun b => by rw [show m' b = f b from dif_pos b.isLt]; exact hf1 b) (fun b hb => dif_neg (by omega))⟩
    refine ⟨m', hrun, ?_⟩
    rintro m'' ⟨_, _, h3⟩
    obtain ⟨_, _, h4⟩ := hrun
    have := Runs.unique h3 h4
    funext b j
    exact congrFun this (b, j)

/-- **C92, lanes.** Circuits with parameters give bit for bit the same amplitudes with vector registers of `L` and of `L'` numbers. -/
theorem C92_lanes (H : SignLaws F) (lib : FloatLib F) {ls : List FLine} {gs : List (UGate ⊕ PRot × String)}
    (hb : List.Forall₂ FLine.Built ls gs) {params : String → Option ℝ} {ds : List GateDesc} (hd : List.Forall₂ (FLine.Is params) ls ds)
    (hok : ∀ d ∈ ds, DescOK d) {L L' n : Nat} (hf : Fits L 1 n) (hf' : Fits L' 1 n) (hq : ∀ d ∈ ds, ∀ q ∈ qubitsOf d, q < n)
    (m : U64 → Cx F) : ∃ m', ItemsRunF lib L n params gs m m' ∧ ItemsRunF lib L' n params gs m m' ∧
      ∀ m'', ItemsRunF lib L n params gs m m'' → m'' = m' := by
  have hn := hf.qubits
  have hsize : 1 * 2 ^ n ≤ 2 ^ 64 := by rw [Nat.one_mul]; exact pow64 (by omega)
  suffices hs : ∃ m', ItemsRunF lib L n params gs m m' ∧ ItemsRunF lib L' n params gs m m' by
    obtain ⟨m', h1, h2⟩ := hs
    exact ⟨m', h1, h2, fun m'' h'' => itemsRunF_unique h'' h1⟩
  induction hb generalizing ds m with
  | nil => exact ⟨m, rfl, rfl⟩
  | @cons l g ls gs hlg _ ih =>
    cases hd with
    | @cons _ d _ ds hld hds =>
    have hqd := hq d List.mem_cons_self
    cases l with
    | gate d' =>
      obtain rfl : d = d' := hld
      cases g with
      | inr rk => exact hlg.elim
      | inl g =>
        obtain ⟨hv, -, hsq⟩ := build_valid (hok _ List.mem_cons_self) (show d.build = .ok g from hlg)
        obtain ⟨ht, hc⟩ := build_bounds hsq hqd
        obtain ⟨dev, hdev, hr⟩ := updateF_total lib hv hf.lanes hn hsize ht hc
        obtain ⟨dev', hdev', hs⟩ := updateF_lanes H lib hv hf.lanes hf'.lanes hsize hdev
        obtain ⟨m₁, h1⟩ := hr m
        obtain ⟨m', h2, h3⟩ := ih hds (fun d h => hok d (List.mem_cons_of_mem _ h)) (fun d h => hq d (List.mem_cons_of_mem _ h)) m₁
        exact ⟨m', ⟨dev, m₁, hdev, h1, h2⟩, ⟨dev', m₁, hdev', (hs _ _).1 h1, h3⟩⟩
    | rot r key =>
      obtain ⟨t, ht, rfl⟩ := hld
      cases g with
      | inl g => exact hlg.elim
      | inr rk =>
        obtain ⟨p, key'⟩ := rk
        obtain ⟨hbp, rfl⟩ := hlg
        rw [rot_qubits] at hqd
        obtain ⟨dev, hdev, hr⟩ := prot_total lib hbp hf.lanes hn hqd t
        obtain ⟨dev', hdev', hs⟩ := prot_lanes lib H hbp hf.lanes hf'.lanes hn hqd t hdev
        obtain ⟨m₁, h1⟩ := hr m
        obtain ⟨m', h2, h3⟩ := ih hds (fun d h => hok d (List.mem_cons_of_mem _ h)) (fun d h => hq d (List.mem_cons_of_mem _ h)) m₁
        exact ⟨m', ⟨t, dev, m₁, ht, hdev, h1, h2⟩, ⟨t, dev', m₁, ht, hdev', (hs _ _).1 h1, h3⟩⟩

/-- one team of a rotation on a batch launches what the update of one state launches without vector registers -/
theorem launch_same (H : SignLaws F) (lib : FloatLib F) (hh : ∀ x, lib.half (-x) = -lib.half x) {n : Nat} (p : PRot)
    (hb : checkWithinBounds p.operands n = .ok ()) (t : ℝ) :
    p.updateF (R := Cx F) lib 0 n t = .ok (.par _ (p.launchF (R := Cx F) lib n t).pool) := by
  cases p with
  | axis a o k =>
    unfold PRot.updateF
    dsimp only
    rw [show checkWithinBounds o n = .ok () from hb, Nat.one_mul, ok_bind, H.mul_comm]
    cases a with
    | X => exact congrArg Except.ok (dense1_zero _ _ _ _ _ _)
    | Y => exact congrArg Except.ok (dense1_zero _ _ _ _ _ _)
    | Z => rfl
  | pauli g k =>
    unfold PRot.updateF
    dsimp only
    rw [show checkWithinBounds g.o n = .ok () from hb, Nat.one_mul, ok_bind]
    refine congrArg Except.ok ?_
    have e : ∀ z : Cx F, halfC lib (-z) = -halfC lib z := fun z => by
      show (⟨lib.half (-z.re), lib.half (-z.im)⟩ : Cx F) = ⟨-lib.half z.re, -lib.half z.im⟩
      rw [hh, hh]
    unfold applyPauliRotationF PRot.launchF
    dsimp only
    rw [e]
    by_cases hx : g.p.x = 0
    · rw [if_pos hx, if_pos hx]
    · rw [if_neg hx, if_neg hx]

/-- **C92, batch and single states.** Where halving commutes with the sign, each state of a batch ends bit for bit with the amplitudes
that the update of a single state by its parameter gives. -/
theorem C92_batch_same (H : SignLaws F) (lib : FloatLib F) (hh : ∀ x, lib.half (-x) = -lib.half x) {r : RotDesc} {p : PRot}
    (h : r.build = .ok p) {L B n : Nat} (hf : Fits L B n) (hq : ∀ t, ∀ q ∈ qubitsOf (r.at t), q < n) {params : List ℝ}
    (hl : params.length = B) {m m' : Nat → U64 → Cx F} (hr : p.BatchRunF lib B n params m m') {b : Nat} {t : ℝ} (hb : b < B)
    (ht : params[b]? = some t) : ∃ dev, p.updateF lib L n t = .ok dev ∧ DRuns (1 * 2 ^ n) dev (m b) (m' b) := by
  have hn := hf.qubits
  have hbd := rot_bounds h hn (hq 0)
  obtain ⟨dev', hdev', hs⟩ := prot_lanes lib H h (L := 0) (.inl rfl) hf.lanes hn (hq 0) t (launch_same H lib hh p hbd t)
  refine ⟨dev', hdev', (hs _ _).1 ?_⟩
  obtain ⟨hr1, hr2⟩ := (C92_determined lib h hf hq).2 params hl m
  choose f hf1 using fun b : Fin B => protLaunch_total lib h hn (hq 0) (params[b.val]'(by omega)) (m b)
  have hrun : p.BatchRunF lib B n params m (fun b => if hb : b < B then f ⟨b, hb⟩ else m b) :=
    ⟨hbd, by omega, slots_run (m' := fun b => if hb : b < B then f ⟨b, hb⟩ else m b) le_rfl
      (fun b => by rw [dif_pos b.isLt]; exact hf1 b) (fun b hb => dif_neg (by omega))⟩
  have e : m' = _ := (hr2.2 _ hr).trans (hr2.2 _ hrun).symm
  have e1 : params[b]'(by omega) = t := by
    rw [List.getElem?_eq_getElem (by omega)] at ht
    injection ht
  have key := hf1 ⟨b, hb⟩
  rw [e1] at key
  have e2 : m' b = f ⟨b, hb⟩ := by rw [e]; exact dif_pos hb
  rw [e2, Nat.one_mul]
  exact key

end

/-! ## examples: a rotation and a circuit in the arithmetic of 53-bit significands -/

/-- `ParamRX(1, 2)` with the parameter `1/2` or `-3` -/
theorem sampleRot_facts : (∃ p, (RotDesc.axis .X 1 2 [] []).build = .ok p) ∧
    (∀ t ∈ ([1 / 2, -3] : List ℝ), RotBounded (2⁻¹ ^ 53) (2⁻¹ ^ 53) 0 (2⁻¹ ^ 46) (.axis .X 1 2 [] []) t) ∧
    ∀ t, ∀ q ∈ qubitsOf ((RotDesc.axis .X 1 2 [] []).at t), q < 2 := by
  refine ⟨?_, ?_, ?_⟩
  · obtain ⟨o, ho⟩ := operands_exist (ts := [1]) (cs := []) (vs := []) (by simp) (by simp) (by simp)
      (by simp) (by simp) (by simp [effectiveValues]) (by simp [effectiveValues])
    exact ⟨_, by simp only [RotDesc.build, mkAxis, ho, ok_bind]; rfl⟩
  · intro t ht
    have hc : t = 1 / 2 ∨ t = -3 := by simpa using ht
    rcases hc with rfl | rfl <;> refine ⟨?_, ?_, ?_, ?_, trivial⟩ <;> norm_num [RotDesc.factor, abs_le, abs_of_nonneg]
  · intro t q hq
    rw [rot_qubits] at hq
    simp [RotDesc.at, qubitsOf, targetsOf, controlsOf, ctrlList, effectiveValues] at hq
    omega

theorem bin_half_neg (x : Bin) : Bin.lib.half (-x) = -Bin.lib.half x := rfl

/-- two states of a batch, turned by the angles `1` and `-6`; each ends as the single state does -/
example : ∃ p, (RotDesc.axis .X 1 2 [] []).build = .ok p ∧ ∀ m : Nat → U64 → Cx Bin,
    (∀ b, b < 2 → ∀ j, InState (2 ^ 2) j → ‖cval Bin.val (m b j)‖ ≤ 4) → ∃ m', p.BatchRunF Bin.lib 2 2 [1 / 2, -3] m m' ∧
      stateNorm (2 ^ 2) (fun j => cval Bin.val (m' 1 j) - operatorOf (.one (.RX (2 * -3)) 1 [] []) (fun j => cval Bin.val (m 1 j)) j) ≤
        256 * (2⁻¹ ^ 46 * stateNorm (2 ^ 2) (fun j => cval Bin.val (m 1 j)) + 0 * √((2 ^ 2 : Nat) : ℝ)) ∧
      ∃ dev, p.updateF Bin.lib 8 2 (-3) = .ok dev ∧ DRuns (1 * 2 ^ 2) dev (m 1) (m' 1) := by
  obtain ⟨⟨p, hp⟩, hr, hq⟩ := sampleRot_facts
  refine ⟨p, hp, fun m hm => ?_⟩
  obtain ⟨m', h1, -, -, h2⟩ := C92_batch (Bin.accurate (Ω := 64) le_rfl) (ε := 2⁻¹ ^ 46) (by norm_num) hp (B := 2) (n := 2)
    ⟨.inl rfl, by norm_num, by norm_num⟩ rfl hr hq m hm
  exact ⟨m', h1, h2 1 (-3) (by norm_num) rfl, C92_batch_same Bin.signLaws Bin.lib bin_half_neg hp (L := 8) (B := 2) (params := [1 / 2, -3])
    ⟨.inr ⟨3, by norm_num, by norm_num⟩, by norm_num, by norm_num⟩ hq rfl h1 (by norm_num) rfl⟩

/-- a Hadamard gate, a parametric rotation and a controlled X gate -/
noncomputable def rotLines : List FLine := [.gate (.one .H 0 [] []), .rot (.axis .X 1 2 [] []) "a", .gate (.one .X 1 [0] [])]

theorem rotLines_facts :
    List.Forall₂ (FLine.Is fun k => if k = "a" then some (-3) else none) rotLines
      [.one .H 0 [] [], .one (.RX (2 * -3)) 1 [] [], .one .X 1 [0] []] ∧
    (∀ d ∈ ([.one .H 0 [] [], .one (.RX (2 * -3)) 1 [] [], .one .X 1 [0] []] : List GateDesc), ∀ q ∈ qubitsOf d, q < 2) ∧
    ∀ l ∈ rotLines, LineBounded (2⁻¹ ^ 53) (2⁻¹ ^ 53) 0 64 (2⁻¹ ^ 46) 1 (fun k => if k = "a" then some (-3) else none) l := by
  obtain ⟨-, hr, -⟩ := sampleRot_facts
  have hd : List.Forall₂ (FLine.Is fun k => if k = "a" then some (-3) else none) rotLines
      [.one .H 0 [] [], .one (.RX (2 * -3)) 1 [] [], .one .X 1 [0] []] := .cons rfl (.cons ⟨-3, rfl, rfl⟩ (.cons rfl .nil))
  have hq : ∀ d ∈ ([.one .H 0 [] [], .one (.RX (2 * -3)) 1 [] [], .one .X 1 [0] []] : List GateDesc), ∀ q ∈ qubitsOf d, q < 2 := by
    intro d hd
    simp only [List.mem_cons, List.not_mem_nil, or_false] at hd
    rcases hd with rfl | rfl | rfl <;> simp [qubitsOf, targetsOf, controlsOf, ctrlList, effectiveValues]
  have hls : ∀ l ∈ rotLines, LineBounded (2⁻¹ ^ 53) (2⁻¹ ^ 53) 0 64 (2⁻¹ ^ 46) 1 (fun k => if k = "a" then some (-3) else none) l := by
    intro l hl
    simp only [rotLines, List.mem_cons, List.not_mem_nil, or_false] at hl
    rcases hl with rfl | rfl | rfl
    · refine ⟨⟨trivial, trivial, ?_, ?_, ?_⟩, ?_, ?_⟩ <;> simp [angles, angles1, terms, UnitaryDesc] <;> norm_num
    · intro t ht
      have e : (-3 : ℝ) = t := by simpa using ht
      exact hr t (by simp [← e])
    · refine ⟨⟨trivial, trivial, ?_, ?_, ?_⟩, ?_, ?_⟩ <;> simp [angles, angles1, terms, UnitaryDesc] <;> norm_num
  exact ⟨hd, hq, hls⟩

/-- With the parameter `-3` the error of the circuit is at most `3 * 512 * 2⁻⁴⁶ < 2⁻³⁵`, and it has the same result in any number of
lanes. -/
example : ∃ gs, List.Forall₂ FLine.Built rotLines gs ∧ ∀ m : U64 → Cx Bin, stateNorm (2 ^ 2) (fun j => cval Bin.val (m j)) ≤ 1 →
    ∃ m', ItemsRunF Bin.lib 8 2 (fun k => if k = "a" then some (-3) else none) gs m m' ∧
      ItemsRunF Bin.lib 0 2 (fun k => if k = "a" then some (-3) else none) gs m m' ∧
      stateNorm (2 ^ 2) (fun j => cval Bin.val (m' j) - exactRun [.one .H 0 [] [], .one (.RX (2 * -3)) 1 [] [], .one .X 1 [0] []]
        (fun j => cval Bin.val (m j)) j) ≤ 2⁻¹ ^ 35 := by
  obtain ⟨⟨p, hp⟩, hr, hqr⟩ := sampleRot_facts
  obtain ⟨g1, h1⟩ := build_one .H (q := 0) (cs := []) (vs := []) (by simp) (by simp) (by simp) (by simp) rfl (by simp [effectiveValues])
  obtain ⟨g3, h3⟩ := build_one .X (q := 1) (cs := [0]) (vs := []) (by simp) (by simp) (by simp) (by simp) (by simp [effectiveValues])
    (by simp [effectiveValues])
  have hb : List.Forall₂ FLine.Built rotLines [.inl g1, .inr (p, "a"), .inl g3] := .cons h1 (.cons ⟨hp, rfl⟩ (.cons h3 .nil))
  obtain ⟨hd, hq, hls⟩ := rotLines_facts
  have hf : Fits 8 1 2 := ⟨Or.inr ⟨3, by norm_num, by norm_num⟩, by norm_num, by norm_num⟩
  have hf0 : Fits 0 1 2 := ⟨Or.inl rfl, by norm_num, by norm_num⟩
  have hok : ∀ d ∈ ([.one .H 0 [] [], .one (.RX (2 * -3)) 1 [] [], .one .X 1 [0] []] : List GateDesc), DescOK d := by
    intro d hd
    simp only [List.mem_cons, List.not_mem_nil, or_false] at hd
    rcases hd with rfl | rfl | rfl <;> trivial
  refine ⟨_, hb, fun m hm => ?_⟩
  have hl : rotLines.length = 3 := rfl
  obtain ⟨m', e1, -, e2⟩ := C92_circuit (Bin.accurate le_rfl) (ε := 2⁻¹ ^ 46) (by norm_num) (by norm_num) hb hd (K := 1) le_rfl hls hf hq
    (by norm_num) (by norm_num) rfl (by rw [hl]; norm_num) m hm
  obtain ⟨m₁, a, b, -⟩ := C92_lanes Bin.signLaws Bin.lib hb hd hok hf hf0 hq m
  have e : m₁ = m' := itemsRunF_unique a e1
  rw [e] at b
  exact ⟨m', e1, b, e2.trans (by rw [hl]; norm_num)⟩

end Verif.Props
