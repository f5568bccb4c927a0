import Verif.Proofs.NoiseOffers
import Verif.Props.Circuit
import Verif.Props.RandomGate

/-! # C45: noisy simulation -/

namespace Verif.Props
open Verif Verif.Spec Verif.Model Verif.Proofs
attribute [-simp] BitVec.getLsbD_eq_getElem

/-- the lines contain no measurement -/
def NoMeasure (ls : List Line) : Prop := ∀ l ∈ ls, ∀ q c r, l.instr ≠ .measure q c r

theorem draws_lt {ls : List Line} {shots : Nat} {draws : Nat → Nat} (hd : DrawsFit ls shots draws) {θ : String → Option ℝ}
    (hw : ∀ l ∈ ls, l.instr.weights.length = (l.instr.alternatives θ).length) :
    ∀ k (hk : k < ls.length) t, t < shots → draws (k * shots + t) < ((ls[k]).instr.alternatives θ).length := by
  intro k hk t ht
  obtain ⟨w, h1, -⟩ := hd k hk t ht
  rw [← hw _ (List.getElem_mem hk)]
  exact (List.getElem?_eq_some_iff.1 h1).1

/-- the loop on a built list of lines -/
theorem noise_lines {ls : List Line} {gs : List Item} (hb : ls.mapM (fun l => l.instr.build) = .ok gs) (hok : ∀ l ∈ ls, l.instr.OK)
    {L n shots : Nat} (hL : LanesOK L) (hn : n < 64) (hq : ∀ l ∈ ls, ∀ q ∈ l.instr.qubits, q < n) {θ : String → Option ℝ}
    (hk : KeysGiven ls θ) (hm : NoMeasure ls) (hsize : shots * 2 ^ n ≤ 2 ^ 64) {draws : Nat → Nat} (hd : DrawsFit ls shots draws)
    (ψ junk : U64 → ℂ) :
    (∃ s', SeqRun (NoiseStep L n draws θ) gs ⟨1, putSlot n 0 ψ junk, [shots], 0⟩ s' none) ∧
    ∀ s' f, SeqRun (NoiseStep L n draws θ) gs ⟨1, putSlot n 0 ψ junk, [shots], 0⟩ s' f → f = none ∧
      NoiseInv n θ ls (restrict n ψ) shots draws s'
        (pathsFrom shots draws (ls.map fun l => (l.instr.alternatives θ).length) 0 [[]] (List.replicate shots [])).1
        (pathsFrom shots draws (ls.map fun l => (l.instr.alternatives θ).length) 0 [[]] (List.replicate shots [])).2 := by
  obtain ⟨ho, hw⟩ := offers_all hb hok hn hq hk hm
  have := noiseInv_loop (L := L) (noise_start hn θ ψ junk shots draws) ho hL (one_fits hn) hsize (fun k hk t ht => by
    rw [List.length_nil, Nat.zero_add]
    exact draws_lt hd hw k hk t ht)
  rwa [List.nil_append] at this

/-- the paths of the shots as a function of the draws -/
def drawnPaths (ls : List Line) (θ : String → Option ℝ) (shots : Nat) (draws : Nat → Nat) : List (List Nat) :=
  (pathsFrom shots draws (ls.map fun l => (l.instr.alternatives θ).length) 0 [[]] (List.replicate shots [])).2

theorem noise_drawn {ls : List Line} {C : Circuit} {L n shots : Nat} (h : CircuitOf ls C n) (hL : LanesOK L) (hn : n < 64)
    {θ : String → Option ℝ} (hk : KeysGiven ls θ) (hm : NoMeasure ls) (hsize : shots * 2 ^ n ≤ 2 ^ 64) (hs : shots < 2 ^ 63)
    {draws : Nat → Nat} (hd : DrawsFit ls shots draws) (ψ : U64 → ℂ) :
    (∃ out, C.SimulatesNoise L n draws θ ψ shots out) ∧ ∀ out, C.SimulatesNoise L n draws θ ψ shots out →
      ∃ res, out = .ok res ∧ (drawnPaths ls θ shots draws).length = shots ∧ FromDraws draws shots ls.length (drawnPaths ls θ shots draws) ∧
        Reports n θ ls ψ (drawnPaths ls θ shots draws) res := by
  have hcirc := h
  obtain ⟨gs, hgs, rfl⟩ := buildCircuit_ok h.built
  have hchk := (checkQubits_iff (cs := ls.map (·.cond)) hgs h.args n).1.2 h.qubits
  have hrun := noise_lines hgs h.args hL hn h.qubits hk hm hsize hd ψ
  unfold Circuit.SimulatesNoise
  rw [hchk]
  dsimp only
  refine ⟨?_, ?_⟩
  · obtain ⟨s, hs1⟩ := (hrun fun _ => 0).1
    exact ⟨_, fun _ => 0, s, none, hs1, rfl⟩
  · rintro out ⟨junk, s, f, h1, rfl⟩
    obtain ⟨rfl, hinv⟩ := (hrun junk).2 s f h1
    obtain ⟨res, h2, h3, h4, h5⟩ := noise_result hinv hs
    exact ⟨res, h2, h3, h4, h5⟩

/-- **C45.** For every circuit without measurements, every number of shots and every sequence of draws, `simulate_noise` returns a list;
there is one path per shot, built from the draws (every draw is used by exactly one shot), and the list reports the paths: each path that
occurs exactly once, with the number of shots on it and the state it leads to.  Classical conditions are ignored. -/
theorem C45_paths {ls : List Line} {C : Circuit} {L n shots : Nat} (h : CircuitOf ls C n) (hL : LanesOK L) (hn : n < 64)
    {θ : String → Option ℝ} (hk : KeysGiven ls θ) (hm : NoMeasure ls) (hsize : shots * 2 ^ n ≤ 2 ^ 64) (hs : shots < 2 ^ 63)
    {draws : Nat → Nat} (hd : DrawsFit ls shots draws) (ψ : U64 → ℂ) :
    (∃ out, C.SimulatesNoise L n draws θ ψ shots out) ∧ ∀ out, C.SimulatesNoise L n draws θ ψ shots out →
      ∃ res paths, out = .ok res ∧ paths.length = shots ∧ FromDraws draws shots ls.length paths ∧ Reports n θ ls ψ paths res := by
  obtain ⟨h1, h2⟩ := noise_drawn h hL hn hk hm hsize hs hd ψ
  refine ⟨h1, fun out hout => ?_⟩
  obtain ⟨res, h3, h4⟩ := h2 out hout
  exact ⟨res, _, h3, h4⟩

/-- the counts of a report add up to the number of shots -/
theorem reports_sum {n : Nat} {θ : String → Option ℝ} {ls : List Line} {ψ : U64 → ℂ} {paths : List (List Nat)}
    {res : List ((U64 → ℂ) × Int)} (h : Reports n θ ls ψ paths res) : (res.map (·.2)).sum = paths.length := by
  obtain ⟨labels, hn, hm, -, hf⟩ := h.entries
  rw [← sum_counts hn hm]
  have : res.map (·.2) = labels.map fun p => (paths.count p : Int) := by
    clear hn hm h
    induction hf with
    | nil => rfl
    | cons h1 _ ih => rw [List.map_cons, List.map_cons, ih, h1.2]
  rw [this]
  clear this hf hm hn
  induction labels with
  | nil => rfl
  | cons l ls ih => rw [List.map_cons, List.sum_cons, ih]; simp

/-- **C45.** The counts add up to the number of shots. -/
theorem C45_shots {ls : List Line} {C : Circuit} {L n shots : Nat} (h : CircuitOf ls C n) (hL : LanesOK L) (hn : n < 64)
    {θ : String → Option ℝ} (hk : KeysGiven ls θ) (hm : NoMeasure ls) (hsize : shots * 2 ^ n ≤ 2 ^ 64) (hs : shots < 2 ^ 63)
    {draws : Nat → Nat} (hd : DrawsFit ls shots draws) (ψ : U64 → ℂ) {out : Res (List ((U64 → ℂ) × Int))}
    (hr : C.SimulatesNoise L n draws θ ψ shots out) : ∃ res, out = .ok res ∧ (res.map (·.2)).sum = shots := by
  obtain ⟨res, paths, rfl, h1, -, h2⟩ := (C45_paths h hL hn hk hm hsize hs hd ψ).2 out hr
  exact ⟨res, rfl, by rw [reports_sum h2, h1]⟩

/-! ## runs of the circuit -/

/-- the choices of a path have positive weight -/
def PathOK (ls : List Line) (p : List Nat) : Prop := ∀ k (hk : k < ls.length), ∃ c w, p[k]? = some c ∧ (ls[k]).instr.weights[c]? = some w ∧ 0 < w

theorem picks_of {ps : List ℝ} {c : Nat} {w : ℝ} (h : ps[c]? = some w) (hw : 0 < w) : Picks ps (ps.take c).sum c := by
  obtain ⟨hc, h⟩ := List.getElem?_eq_some_iff.1 h
  refine ⟨hc, le_rfl, .inl ?_⟩
  rw [List.take_add_one, List.getElem?_eq_getElem hc, List.sum_append, h]
  simpa using hw

theorem along_history {n : Nat} {θ : String → Option ℝ} {ls : List Line} {p : List Nat} {ψ ψ' : U64 → ℂ} (h : Along n θ ls p ψ ψ')
    (hc : ∀ l ∈ ls, l.cond = none) (hp : PathOK ls p) (reg : List Bool) :
    ∃ uss, History n θ ls ⟨ψ, reg, []⟩ uss ⟨ψ', reg, []⟩ := by
  induction h with
  | nil ψ => exact ⟨[], .nil _⟩
  | cons l ls c cs ψ ψ' hlt _ ih =>
    obtain ⟨uss, hu⟩ := ih (fun l hl => hc l (List.mem_cons_of_mem _ hl)) (fun k hk => by
      obtain ⟨c', w, h1, h2⟩ := hp (k + 1) (by simp; omega)
      exact ⟨c', w, h1, h2⟩)
    obtain ⟨c', w, h1, h2, h3⟩ := hp 0 (by simp)
    obtain rfl : c = c' := by simpa using h1
    simp only [List.getElem_cons_zero] at h2
    have hcond := hc l List.mem_cons_self
    obtain ⟨ins, cond⟩ := l
    dsimp only at hcond h2 hlt hu
    subst hcond
    have key : ∃ us, Line.Effect n θ ⟨ins, none⟩ ⟨ψ, reg, []⟩ us
        ⟨onState (2 ^ n) (operatorOf (ins.alternatives θ)[c]) ψ, reg, []⟩ := by
      cases ins with
      | gate d =>
        obtain rfl : c = 0 := by simpa [Instr.alternatives] using hlt
        exact ⟨[], .gate d none ⟨ψ, reg, []⟩ rfl (by simp)⟩
      | choice ps ds => exact ⟨[_], .choice ps ds none ⟨ψ, reg, []⟩ _ c hlt rfl (by simp) (picks_of h2 h3)⟩
      | measure q cb r => simp [Instr.weights] at h2
      | rot r key =>
        cases ht : θ key with
        | none => simp [Instr.alternatives, ht] at hlt
        | some t =>
          have ha : (Instr.rot r key).alternatives θ = [r.at t] := by simp [Instr.alternatives, ht]
          simp only [ha] at hlt ⊢
          obtain rfl : c = 0 := by simpa using hlt
          exact ⟨[], .rot r key t none ⟨ψ, reg, []⟩ rfl (by simp) ht⟩
      | pchoice ps lls key =>
        cases ht : θ key with
        | none => simp [Instr.alternatives, ht] at hlt
        | some t =>
          have ha : (Instr.pchoice ps lls key).alternatives θ = lls.map (·.at t) := by simp [Instr.alternatives, ht]
          simp only [ha] at hlt ⊢
          rw [List.length_map] at hlt
          rw [List.getElem_map]
          exact ⟨[_], .pchoice ps lls key t none ⟨ψ, reg, []⟩ _ c hlt rfl (by simp) ht (picks_of h2 h3)⟩
    obtain ⟨us, hus⟩ := key
    exact ⟨us :: uss, .cons _ _ _ _ _ _ _ hus hu⟩

/-- **C45 (partial).** For a circuit without classical conditions every returned state is the state after a run of the circuit with some
random numbers; together with `C38_in_order`, `update_quantum_state` with these random numbers ends in the returned state.
Missing: circuits with classical conditions, for which it is false (`C45_counterexample`). -/
theorem C45_runs_partial {ls : List Line} {C : Circuit} {L n shots : Nat} (h : CircuitOf ls C n) (hL : LanesOK L) (hn : n < 64)
    {θ : String → Option ℝ} (hk : KeysGiven ls θ) (hm : NoMeasure ls) (hsize : shots * 2 ^ n ≤ 2 ^ 64) (hs : shots < 2 ^ 63)
    (h0 : 0 < shots) {draws : Nat → Nat} (hd : DrawsFit ls shots draws) (hcond : ∀ l ∈ ls, l.cond = none) (ψ : U64 → ℂ)
    {out : Res (List ((U64 → ℂ) × Int))} (hr : C.SimulatesNoise L n draws θ ψ shots out) :
    ∃ res, out = .ok res ∧ ∀ r ∈ res, 0 < r.2 ∧ ∃ uss, History n θ ls ⟨restrict n ψ, [], []⟩ uss ⟨r.1, [], []⟩ ∧
      ∀ rnd, Draws rnd uss.flatten → ∀ c' f, C.RunsOn L n rnd θ (restrict n ψ) [] c' f ↔ c' = ⟨r.1, [], uss.flatten.length⟩ ∧ f = none := by
  obtain ⟨res, paths, rfl, h1, h2, h3⟩ := (C45_paths h hL hn hk hm hsize hs hd ψ).2 out hr
  refine ⟨res, rfl, fun r hr => ?_⟩
  obtain ⟨labels, hnd, hmem, hmem', hf⟩ := h3.entries
  have hne : paths ≠ [] := by intro e; rw [e] at h1; simp at h1; omega
  obtain ⟨i, hi, rfl⟩ := List.mem_iff_getElem.1 hr
  have hil : i < labels.length := by rw [hf.length_eq]; exact hi
  obtain ⟨ha, hcnt⟩ := List.forall₂_iff_get.1 hf |>.2 i hil hi
  simp only [List.get_eq_getElem] at ha hcnt
  have hin : labels[i] ∈ paths := hmem' hne _ (List.getElem_mem hil)
  have hpok : PathOK ls labels[i] := by
    intro k hk
    have hlen := h2.1 _ hin
    have hkl : k < labels[i].length := by rw [hlen]; exact hk
    have : some labels[i][k] ∈ paths.map (·[k]?) := List.mem_map.2 ⟨_, hin, List.getElem?_eq_getElem hkl⟩
    obtain ⟨t, ht, e⟩ := List.mem_map.1 ((h2.2 k hk).mem_iff.1 this)
    obtain ⟨w, hw1, hw2⟩ := hd k hk t (List.mem_range.1 ht)
    rw [Option.some.inj e] at hw1
    exact ⟨labels[i][k], w, List.getElem?_eq_getElem hkl, hw1, hw2⟩
  obtain ⟨uss, hu⟩ := along_history ha hcond hpok []
  refine ⟨?_, uss, hu, fun rnd hrnd c' f => C38_in_order h hL hn hk hu hrnd c' f⟩
  rw [hcnt]
  exact_mod_cast List.count_pos_iff.2 hin

/-- **C45 (refusal).** A circuit with a measurement is refused by an exception, whatever comes after the measurement. -/
theorem C45_measurement {ls rest : List Line} {q cbit : Nat} {reset : Bool} {c : Option Condition} {C : Circuit} {L n shots : Nat}
    (h : CircuitOf (ls ++ ⟨.measure q cbit reset, c⟩ :: rest) C n) (hL : LanesOK L) (hn : n < 64) {θ : String → Option ℝ}
    (hk : KeysGiven ls θ) (hm : NoMeasure ls) (hsize : shots * 2 ^ n ≤ 2 ^ 64) {draws : Nat → Nat}
    (hd : DrawsFit ls shots draws) (ψ : U64 → ℂ) : ∃ e, ∀ out, C.SimulatesNoise L n draws θ ψ shots out ↔ out = .error (.throw e) := by
  have hcirc := h
  obtain ⟨gs, hgs, rfl⟩ := buildCircuit_ok h.built
  have hchk := (checkQubits_iff (cs := (ls ++ ⟨.measure q cbit reset, c⟩ :: rest).map (·.cond)) hgs h.args n).1.2 h.qubits
  rw [List.mapM_append] at hgs
  obtain ⟨ga, hga, hgs⟩ := bind_ok hgs
  obtain ⟨gb, hgb, hgs⟩ := bind_ok hgs
  rw [List.mapM_cons] at hgb
  obtain ⟨g, hg, hgb⟩ := bind_ok hgb
  obtain ⟨gr, hgr, hgb⟩ := bind_ok hgb
  cases hgb
  cases hgs
  obtain ⟨u, hu, hg⟩ := bind_ok (show (do let g ← mkMeas q cbit reset; pure (Sum.inl (Gate.meas g))) = .ok g from hg)
  cases hg
  have hrun := noise_lines hga (fun l hl => h.args l (List.mem_append_left _ hl)) hL hn
    (fun l hl => h.qubits l (List.mem_append_left _ hl)) hk hm hsize hd ψ
  have hstep : ∀ s s' f, NoiseStep L n draws θ (.inl (.meas u)) s s' f ↔
      s' = s ∧ f = some (.throw "Circuit::simulate_noise: Measurement gate is not supported.") := fun s s' f => Iff.rfl
  refine ⟨"Circuit::simulate_noise: Measurement gate is not supported.", fun out => ?_⟩
  unfold Circuit.SimulatesNoise
  rw [hchk]
  dsimp only
  constructor
  · rintro ⟨junk, s, f, h1, rfl⟩
    have key : ∀ (ga : List Item) (s0 : NoiseState), (∀ s' f, SeqRun (NoiseStep L n draws θ) ga s0 s' f → f = none) →
        SeqRun (NoiseStep L n draws θ) (ga ++ Sum.inl (Gate.meas u) :: gr) s0 s f →
        f = some (.throw "Circuit::simulate_noise: Measurement gate is not supported.") := by
      intro ga
      induction ga with
      | nil =>
        intro s0 _ hr
        cases hr with
        | cons _ _ _ c1 _ _ a b => exact absurd ((hstep _ _ _).1 a).2 (by simp)
        | stop _ _ _ _ e a => exact ((hstep _ _ _).1 a).2
      | cons x xs ih =>
        intro s0 hall hr
        cases hr with
        | cons _ _ _ c1 _ _ a b => exact ih c1 (fun s' f hr => hall s' f (.cons _ _ _ _ _ _ a hr)) b
        | stop _ _ _ _ e a => exact absurd (hall _ _ (.stop _ _ _ _ _ a)) (by simp)
    rw [key ga _ (fun s' f hr => ((hrun junk).2 s' f hr).1) h1]
  · rintro rfl
    obtain ⟨s, hs1⟩ := (hrun fun _ => 0).1
    exact ⟨fun _ => 0, s, _, seqRun_append hs1 (.stop _ _ _ _ _ ((hstep _ _ _).2 ⟨rfl, rfl⟩)), rfl⟩

/-! ## the condition is ignored -/

/-- `X` on qubit 0 under a condition that is never true -/
def neverLines : List Line := [⟨.gate (.one .X 0 [] []), some fun _ => .ok false⟩]

theorem neverLines_of : ∃ C, CircuitOf neverLines C 1 := by
  obtain ⟨C, hC⟩ := buildCircuit_of (ls := neverLines) (by
    intro l hl
    simp only [neverLines, List.mem_cons, List.not_mem_nil, or_false] at hl
    subst hl
    exact gate_builds _ (by norm_num))
  refine ⟨C, hC, ?_, ?_⟩
  · intro l hl
    simp only [neverLines, List.mem_cons, List.not_mem_nil, or_false] at hl
    subst hl; trivial
  · intro l hl
    simp only [neverLines, List.mem_cons, List.not_mem_nil, or_false] at hl
    subst hl; simp [Instr.qubits, qubitsOf, targetsOf, controlsOf, ctrlList]

theorem neverLines_fit (shots : Nat) : DrawsFit neverLines shots fun _ => 0 := by
  intro k hk t ht
  obtain rfl : k = 0 := by simpa [neverLines] using hk
  exact ⟨1, rfl, one_pos⟩

theorem neverLines_plain : NoMeasure neverLines := by
  intro l hl q c r
  simp only [neverLines, List.mem_cons, List.not_mem_nil, or_false] at hl
  subst hl
  simp

/-- **C45 (counterexample).** `simulate_noise` ignores classical conditions: for the circuit `X(0)` under a condition that is never true,
`update_quantum_state` leaves the state unchanged for every register, while `simulate_noise` returns the flipped state. -/
theorem C45_counterexample : ∃ C, CircuitOf neverLines C 1 ∧ ∀ L, LanesOK L → ∀ (θ : String → Option ℝ),
    (∀ ψ reg rnd c' f, C.RunsOn L 1 rnd θ ψ reg c' f → c'.psi = ψ ∧ f = none) ∧
    ∀ out, C.SimulatesNoise L 1 (fun _ => 0) θ (fun j => if j = 0 then 1 else 0) 1 out →
      ∃ φ, out = .ok [(φ, 1)] ∧ φ 0 = 0 ∧ φ 1 = 1 := by
  obtain ⟨C, hC⟩ := neverLines_of
  refine ⟨C, hC, fun L hL θ => ⟨?_, ?_⟩⟩
  · intro ψ reg rnd c' f hr
    have hh : History 1 θ neverLines ⟨ψ, reg, []⟩ [[]] ⟨ψ, reg, []⟩ := .cons _ _ _ _ _ _ _ (.skip _ _ rfl) (.nil _)
    obtain ⟨rfl, rfl⟩ := (C38_in_order hC hL (by norm_num) (by
      intro l hl k hk
      simp only [neverLines, List.mem_cons, List.not_mem_nil, or_false] at hl
      subst hl
      cases hk) hh (rnd := rnd) (by intro i hi; simp at hi) c' f).1 hr
    exact ⟨rfl, rfl⟩
  · intro out hr
    obtain ⟨res, paths, rfl, h1, h2, h3⟩ := (C45_paths hC hL (by norm_num) (θ := θ) (by
      intro l hl k hk
      simp only [neverLines, List.mem_cons, List.not_mem_nil, or_false] at hl
      subst hl
      cases hk) neverLines_plain (by norm_num) (by norm_num) (neverLines_fit 1) _).2 out hr
    obtain ⟨labels, hnd, hmem, hmem', hf⟩ := h3.entries
    obtain ⟨p, rfl⟩ := List.length_eq_one_iff.1 h1
    have hlab : labels = [p] := by
      have h4 : p ∈ labels := hmem p (by simp)
      have h5 : ∀ q ∈ labels, q = p := fun q hq => by simpa using hmem' (by simp) q hq
      rw [List.eq_replicate_of_mem h5] at hnd ⊢
      have : labels.length ≤ 1 := List.nodup_replicate.1 hnd
      have : 0 < labels.length := List.length_pos_of_mem h4
      rw [show labels.length = 1 by omega]
      rfl
    subst hlab
    cases hf with
    | @cons _ r _ res hent hres =>
      cases hres
      obtain ⟨φ, cnt⟩ := r
      obtain ⟨ha, hc⟩ := hent
      dsimp only at ha hc
      simp at hc
      subst hc
      refine ⟨φ, rfl, ?_⟩
      cases ha with
      | cons _ _ c cs _ _ hlt ha =>
        obtain rfl : c = 0 := by simpa [Instr.alternatives] using hlt
        cases ha
        constructor
        · show (if (0 : U64).toNat < 2 ^ 1 then applyMat [0] (gate1Mat .X) [] _ 0 else _) = _
          rw [if_pos (by decide), applyMat_one, if_pos (by simp [CtrlOK])]
          rw [show setBit 0 0 true = (1 : U64) by decide, show (0 : U64).getLsbD 0 = false by decide]
          simp [gate1Mat, pauliX, mat2, restrict]
        · show (if (1 : U64).toNat < 2 ^ 1 then applyMat [0] (gate1Mat .X) [] _ 1 else _) = _
          rw [if_pos (by decide), applyMat_one, if_pos (by simp [CtrlOK])]
          rw [show setBit 1 0 false = (0 : U64) by decide, show (1 : U64).getLsbD 0 = true by decide]
          simp [gate1Mat, pauliX, mat2, restrict]

/-! ## example -/

/-- a noisy circuit: a Hadamard gate, a bit flip with probability 1/4, a parametric rotation -/
noncomputable def noisyLines : List Line := [⟨.gate (.one .H 0 [] []), none⟩,
  ⟨.choice [1 / 4, 3 / 4] [.one .X 0 [] [], .ident], none⟩, ⟨.rot (.axis .Z 0 1 [] []) "a", none⟩]

theorem noisyLines_of : ∃ C, CircuitOf noisyLines C 1 := by
  obtain ⟨C, hC⟩ := buildCircuit_of (ls := noisyLines) (by
    intro l hl
    simp only [noisyLines, List.mem_cons, List.not_mem_nil, or_false] at hl
    rcases hl with rfl | rfl | rfl
    · exact gate_builds _ (by norm_num)
    · obtain ⟨g, hg⟩ := build_one .X (q := 0) (cs := []) (vs := []) (by norm_num) (by simp) (by simp) (by simp) rfl (by simp [effectiveValues])
      obtain ⟨p, hp⟩ := (C36_accepts [some (1 / 4), some (3 / 4)] [g, .ident]).1.2
        ⟨[1 / 4, 3 / 4], rfl, by simp, rfl, by simp; norm_num, by norm_num⟩
      refine ⟨.inl p, ?_⟩
      show (do
          let gs ← [GateDesc.one .X 0 [] [], .ident].mapM GateDesc.build
          let g ← mkProbabilistic ([1 / 4, 3 / 4].map some) (gs.map .det)
          pure (Sum.inl g) : Res Item) = _
      have hm : [GateDesc.one .X 0 [] [], .ident].mapM GateDesc.build = .ok [g, .ident] := by
        rw [List.mapM_cons, hg]; rfl
      rw [hm, ok_bind]
      show (do let g ← mkProbabilistic [some (1 / 4), some (3 / 4)] ([g, .ident].map .det); pure (Sum.inl g) : Res Item) = _
      rw [hp]; rfl
    · exact rot_builds _ (by norm_num) _ _)
  refine ⟨C, hC, ?_, ?_⟩
  · intro l hl
    simp only [noisyLines, List.mem_cons, List.not_mem_nil, or_false] at hl
    rcases hl with rfl | rfl | rfl
    · trivial
    · simp [Instr.OK, DescOK]
    · trivial
  · intro l hl
    simp only [noisyLines, List.mem_cons, List.not_mem_nil, or_false] at hl
    rcases hl with rfl | rfl | rfl <;> simp [Instr.qubits, qubitsOf, targetsOf, controlsOf, ctrlList, RotDesc.at]

/-- the hypotheses of the theorems hold for the sample with four shots, one of which is flipped -/
example : (∃ C, CircuitOf noisyLines C 1) ∧ KeysGiven noisyLines (fun _ => some (0 : ℝ)) ∧ NoMeasure noisyLines ∧
    DrawsFit noisyLines 4 (fun i => if 5 ≤ i ∧ i < 8 then 1 else 0) ∧ ∀ l ∈ noisyLines, l.cond = none := by
  refine ⟨noisyLines_of, fun l _ k _ => ⟨0, rfl⟩, ?_, ?_, ?_⟩
  · intro l hl q c r
    simp only [noisyLines, List.mem_cons, List.not_mem_nil, or_false] at hl
    rcases hl with rfl | rfl | rfl <;> simp
  · intro k hk t ht
    have hk : k < 3 := hk
    have : k = 0 ∨ k = 1 ∨ k = 2 := by omega
    rcases this with rfl | rfl | rfl
    · refine ⟨1, ?_, one_pos⟩
      dsimp only
      rw [if_neg (by omega)]
      rfl
    · by_cases h5 : t = 0
      · subst h5
        exact ⟨1 / 4, rfl, by norm_num⟩
      · refine ⟨3 / 4, ?_, by norm_num⟩
        dsimp only
        rw [if_pos (by omega)]
        rfl
    · refine ⟨1, ?_, one_pos⟩
      dsimp only
      rw [if_neg (by omega)]
      rfl
  · intro l hl
    simp only [noisyLines, List.mem_cons, List.not_mem_nil, or_false] at hl
    rcases hl with rfl | rfl | rfl <;> rfl

/-- `C45_measurement` applies to a gate followed by a measurement -/
example : ∃ C, CircuitOf ([⟨.gate (.one .H 0 [] []), none⟩] ++ ⟨.measure 0 0 true, none⟩ :: []) C 1 := by
  obtain ⟨C, hC⟩ := buildCircuit_of (ls := [⟨.gate (.one .H 0 [] []), none⟩] ++ ⟨.measure 0 0 true, none⟩ :: []) (by
    intro l hl
    simp only [List.cons_append, List.nil_append, List.mem_cons, List.not_mem_nil, or_false] at hl
    rcases hl with rfl | rfl
    · exact gate_builds _ (by norm_num)
    · exact measure_builds (by norm_num) _ _)
  refine ⟨C, hC, ?_, ?_⟩
  · intro l hl
    simp only [List.cons_append, List.nil_append, List.mem_cons, List.not_mem_nil, or_false] at hl
    rcases hl with rfl | rfl <;> trivial
  · intro l hl
    simp only [List.cons_append, List.nil_append, List.mem_cons, List.not_mem_nil, or_false] at hl
    rcases hl with rfl | rfl <;> simp [Instr.qubits, qubitsOf, targetsOf, controlsOf, ctrlList]

end Verif.Props
