import Verif.Proofs.GateDescFacts

/-! # C01, C02: work items and schedules -/

namespace Verif.Props
open Verif Verif.Spec Verif.Model Verif.Proofs
attribute [-simp] BitVec.getLsbD_eq_getElem

/-- the index computed by work item `it` of the gate kernels -/
def base (o : Operands) (it : Nat) : U64 := insertZero (BitVec.ofNat 64 it) (o.t ||| o.c) ||| o.v

/-- **C01.** For operands accepted by the factories and inside the register, the kernel launches
`batch * 2^(n - #targets - #controls)` work items (`flat_dim >> popcount(mask)`); each work item together with an
assignment `x` of the target qubits denotes an index inside the state that satisfies the controls; and every such
index is denoted by exactly one pair (work item, assignment). -/
theorem C01_workItems_partition {ts cs vs : List Nat} {o : Operands} {B n : Nat}
    (hmk : mkOperands ts cs vs = .ok o) (hb : ∀ q, q ∈ ts ∨ q ∈ cs → q < n) (hsize : B * 2 ^ n ≤ 2 ^ 64) :
    workItems (B * 2 ^ n) (o.t ||| o.c) = B * 2 ^ (n - (ts.length + cs.length)) ∧
    (∀ it, it < workItems (B * 2 ^ n) (o.t ||| o.c) → ∀ x, x < 2 ^ ts.length →
      (putBits (base o it) ts x).toNat < B * 2 ^ n ∧ CtrlOK (ctrlList cs vs) (putBits (base o it) ts x)) ∧
    (∀ j : U64, j.toNat < B * 2 ^ n → CtrlOK (ctrlList cs vs) j →
      ∃! p : Nat × Nat, p.1 < workItems (B * 2 ^ n) (o.t ||| o.c) ∧ p.2 < 2 ^ ts.length ∧
        putBits (base o p.1) ts p.2 = j) := by
  have hM := masksOK_of hmk hb hsize
  obtain ⟨tn, tl, cn, cl, hdisj, -, -, tb, cb, -⟩ := mkOperands_ok hmk
  have hT : TargetsOK ts := ⟨tn, tl⟩
  have hbits : ∀ i, (o.t ||| o.c).getLsbD i = decide (i ∈ ts ++ cs) := by
    intro i
    rw [BitVec.getLsbD_or, tb, cb, ← Bool.decide_or]
    simp
  have hTC : TargetsOK (ts ++ cs) := by
    constructor
    · rw [List.nodup_append]
      refine ⟨tn, cn, ?_⟩
      intro a ha b hb' e
      subst e; exact hdisj a ha hb'
    · intro q hq
      rw [List.mem_append] at hq
      exact hq.elim (tl q) (cl q)
  have hinb : ∀ (b : U64) (x : Nat), InBlock o.t b (putBits b ts x) := by
    intro b x i _ hi
    rw [tb] at hi
    exact getLsbD_putBits_notMem b tl x (by simpa using hi)
  refine ⟨?_, ?_, ?_⟩
  · rw [workItems_eq hM.fits, popcount_length hTC hbits, List.length_append]
  · intro it hit x hx
    obtain ⟨h1, h2⟩ := inBlock_mem hM (base_isBase hM hit) (hinb _ x)
    exact ⟨h1, (ctrl_mask_iff hmk _).1 h2⟩
  · intro j hj hc
    obtain ⟨it, hit, hblk⟩ := block_surj hM hj ((ctrl_mask_iff hmk j).2 hc)
    have hput : putBits (base o it) ts (getBits j ts) = j := by
      rw [putBits_ext hT (j' := j), putBits_getBits j hT]
      intro i hi
      by_cases h64 : i < 64
      · exact (hblk i h64 (by rw [tb]; simpa using hi)).symm
      · rw [getLsbD_high _ (by omega), getLsbD_high _ (by omega)]
    refine ⟨(it, getBits j ts), ⟨hit, getBits_lt j ts, hput⟩, ?_⟩
    rintro ⟨it', x⟩ ⟨h1, h2, h3⟩
    have hx : x = getBits j ts := by rw [← h3, getBits_putBits _ hT h2]
    have hi : it' = it := by
      apply block_inj hM h1 hit (j := j) _ hblk
      have := hinb (base o it') x
      rw [h3] at this; exact this
    rw [hx, hi]

/-- the hypotheses of C01 are met, e.g. by target 2 with controls 0 (value 0) and 3 (value 1) on two states of five qubits -/
example : ∃ o, mkOperands [2] [0, 3] [0, 1] = .ok o ∧ (∀ q, q ∈ [2] ∨ q ∈ [0, 3] → q < 5) ∧ 2 * 2 ^ 5 ≤ 2 ^ 64 := by
  obtain ⟨o, ho⟩ := mkOperands_complete (ts := [2]) (cs := [0, 3]) (vs := [0, 1]) (by simp) (by simp) (by simp) (by simp)
    (by simp) (by simp [effectiveValues]) (by simp [effectiveValues])
  exact ⟨o, ho, by simp, by norm_num⟩

/-- No data race, no access outside the state, and one final state for all schedules of all launches. -/
def ScheduleIndependent {R : Type} (dim : Nat) (d : Device R) (ψ : U64 → R) : Prop := ∃! ψ', DRuns dim d ψ ψ'

/-- **C02.** The launches of every gate object built by the factories have, on every state, exactly one result
under all interleavings, no data race and no access outside the state (`DRuns` is defined from the interleaving
semantics `Step`, see `C02_meaning` for a single launch). -/
theorem C02_schedule_independent {d : GateDesc} {g : UGate} (hd : DescOK d) (h : d.build = .ok g) {L B n : Nat}
    (hL : LanesOK L) (hn : n < 64) (hsize : B * 2 ^ n ≤ 2 ^ 64) (hq : ∀ q ∈ qubitsOf d, q < n) :
    ∃ dev, g.update L B n = .ok dev ∧ ∀ ψ, ScheduleIndependent (B * 2 ^ n) dev ψ := by
  obtain ⟨dev, h1, h2⟩ := build_update hd h hL hn hsize hq
  exact ⟨dev, h1, fun ψ => ⟨_, h2 ψ, fun ψ' h' => DRuns.unique h' (h2 ψ)⟩⟩

/-- what `DRuns` means for one launch: from every configuration reachable by any interleaving no work item is about
to leave the state, no two work items conflict, a finished configuration is always reachable, no execution is
infinite, and whenever all work items are finished the memory is the same. -/
theorem C02_meaning {N dim : Nat} {pool : Pool (Fin N) U64 ℂ} {ψ ψ' : U64 → ℂ} (h : DRuns dim (.par N pool) ψ ψ') :
    (∀ c, Relation.ReflTransGen (Step (InState dim)) (pool, ψ) c → ¬ OutOfRange (InState dim) c ∧ ¬ Race c ∧
      (Finished c → c.2 = ψ') ∧ ∃ c', Relation.ReflTransGen (Step (InState dim)) c c' ∧ Finished c') ∧
    WellFounded (fun c' c : Pool (Fin N) U64 ℂ × (U64 → ℂ) => Step (InState dim) c c') :=
  ⟨fun c hc => ⟨h.in_range c hc, h.no_race c hc, h.result c hc, h.finishes c hc⟩, step_wf _⟩

example : ∃ g, (GateDesc.one .H 2 [0, 3] [0, 1]).build = .ok g ∧ DescOK (.one .H 2 [0, 3] [0, 1]) ∧ LanesOK 8 ∧
    ∀ q ∈ qubitsOf (.one .H 2 [0, 3] [0, 1]), q < 5 := by
  obtain ⟨o, ho⟩ := mkOperands_complete (ts := [2]) (cs := [0, 3]) (vs := [0, 1]) (by simp) (by simp) (by simp) (by simp)
    (by simp) (by simp [effectiveValues]) (by simp [effectiveValues])
  refine ⟨.one .H o, by simp [GateDesc.build, ho], trivial, Or.inr ⟨3, by norm_num, by norm_num⟩, ?_⟩
  simp [qubitsOf, targetsOf, controlsOf, ctrlList, effectiveValues]

end Verif.Props
