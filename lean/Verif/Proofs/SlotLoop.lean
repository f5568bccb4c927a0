import Verif.Proofs.Measure
import Verif.Proofs.GateBuild

/-! # Loops over the slots of a batch -/

namespace Verif.Proofs
open Verif Verif.Spec Verif.Model
attribute [-simp] BitVec.getLsbD_eq_getElem

theorem slotOf_putSlot_same {B n b : Nat} (hB : B * 2 ^ n ≤ 2 ^ 64) (hb : b < B) (ψ Ψ : U64 → ℂ) :
    slotOf n b (putSlot n b ψ Ψ) = fun j => if j.toNat < 2 ^ n then ψ j else 0 := by
  funext j
  unfold slotOf
  by_cases hj : j.toNat < 2 ^ n
  · rw [if_pos hj, if_pos hj]
    have h := slotIndex_toNat hB hb hj
    unfold slotIndex at h
    unfold putSlot
    rw [h, Nat.mul_comm, Nat.mul_add_div (Nat.two_pow_pos n), Nat.div_eq_of_lt hj, Nat.add_zero, if_pos rfl,
      Nat.mul_add_mod, Nat.mod_eq_of_lt hj]
    congr 1
    exact BitVec.eq_of_toNat_eq (by rw [BitVec.toNat_ofNat, Nat.mod_eq_of_lt j.isLt])
  · rw [if_neg hj, if_neg hj]

theorem slotOf_putSlot_other {B n b b' : Nat} (hB : B * 2 ^ n ≤ 2 ^ 64) (hb : b' < B) (hne : b' ≠ b) (ψ Ψ : U64 → ℂ) :
    slotOf n b' (putSlot n b ψ Ψ) = slotOf n b' Ψ := by
  funext j
  unfold slotOf
  by_cases hj : j.toNat < 2 ^ n
  · rw [if_pos hj, if_pos hj]
    have h := slotIndex_toNat hB hb hj
    unfold slotIndex at h
    unfold putSlot
    rw [h, Nat.mul_comm, Nat.mul_add_div (Nat.two_pow_pos n), Nat.div_eq_of_lt hj, Nat.add_zero, if_neg hne]
  · rw [if_neg hj, if_neg hj]

theorem putSlot_ofSlots {B n s : Nat} (hB : B * 2 ^ n ≤ 2 ^ 64) (hs : s < B) (D : Nat → U64 → ℂ) (Ψ : U64 → ℂ) :
    putSlot n s (D s) (ofSlots s n D Ψ) = ofSlots (s + 1) n D Ψ := by
  funext j
  unfold putSlot ofSlots
  by_cases h : j.toNat / 2 ^ n = s
  · rw [if_pos h, if_pos, h]
    rw [← h]
    have := Nat.lt_div_mul_add (a := j.toNat) (Nat.two_pow_pos n)
    rw [Nat.add_mul, Nat.one_mul]; exact this
  · rw [if_neg h]
    by_cases hl : j.toNat < s * 2 ^ n
    · rw [if_pos hl, if_pos (by rw [Nat.add_mul]; omega)]
    · rw [if_neg hl, if_neg]
      intro hl'
      exact h (Nat.div_eq_of_lt_le (by omega) (by omega))

theorem slotOf_ofSlots_later {B n s b : Nat} (hB : B * 2 ^ n ≤ 2 ^ 64) (hb : b < B) (hs : s ≤ b) (D : Nat → U64 → ℂ)
    (Ψ : U64 → ℂ) : slotOf n b (ofSlots s n D Ψ) = slotOf n b Ψ := by
  funext j
  unfold slotOf
  by_cases hj : j.toNat < 2 ^ n
  · rw [if_pos hj, if_pos hj]
    have h := slotIndex_toNat hB hb hj
    unfold slotIndex at h
    unfold ofSlots
    rw [h, if_neg]
    have : s * 2 ^ n ≤ b * 2 ^ n := Nat.mul_le_mul_right _ hs
    omega
  · rw [if_neg hj, if_neg hj]

theorem slotOf_ofSlots {B n b : Nat} (hB : B * 2 ^ n ≤ 2 ^ 64) (hb : b < B) (D : Nat → U64 → ℂ) (Ψ : U64 → ℂ) {j : U64}
    (hj : j.toNat < 2 ^ n) : slotOf n b (ofSlots B n D Ψ) j = D b j := by
  unfold slotOf
  rw [if_pos hj]
  have h := slotIndex_toNat hB hb hj
  unfold slotIndex at h
  unfold ofSlots
  have h2 : (b + 1) * 2 ^ n ≤ B * 2 ^ n := Nat.mul_le_mul_right _ hb
  rw [Nat.add_mul, Nat.one_mul] at h2
  rw [h, if_pos (by omega), Nat.mul_comm, Nat.mul_add_div (Nat.two_pow_pos n), Nat.div_eq_of_lt hj, Nat.add_zero,
    Nat.mul_add_mod, Nat.mod_eq_of_lt hj]
  congr 1
  exact BitVec.eq_of_toNat_eq (by rw [BitVec.toNat_ofNat, Nat.mod_eq_of_lt j.isLt])

/-- if the single-state update turns slot `b` (with its register, and the random numbers from position `P b` on) into `D b` with
register `R b`, the loop over all slots turns the batch into these -/
theorem slots_loop {B n : Nat} (hB : B * 2 ^ n ≤ 2 ^ 64) {run : Context → Context → Option Fault → Prop} (Ψ : U64 → ℂ)
    (regs : List (List Bool)) (sz : Nat) (hl : regs.length = B) (D : Nat → U64 → ℂ) (R : Nat → List Bool) (P : Nat → Nat)
    (h : ∀ b (hb : b < regs.length), run ⟨slotOf n b Ψ, regs[b], P b⟩ ⟨D b, R b, P (b + 1)⟩ none) :
    SeqRun (SlotStep n run) (List.range B) ⟨Ψ, ⟨sz, regs⟩, P 0⟩
      ⟨ofSlots B n D Ψ, ⟨sz, (List.range B).map R⟩, P B⟩ none := by
  have key : ∀ m s, s + m = B → SeqRun (SlotStep n run) (List.range' s m)
      ⟨ofSlots s n D Ψ, ⟨sz, (List.range s).map R ++ regs.drop s⟩, P s⟩
      ⟨ofSlots B n D Ψ, ⟨sz, (List.range B).map R⟩, P B⟩ none := by
    intro m
    induction m with
    | zero =>
      intro s hs
      obtain rfl : s = B := by omega
      rw [List.drop_of_length_le (by omega), List.append_nil]
      exact SeqRun.nil _
    | succ m ih =>
      intro s hs
      rw [List.range'_succ]
      refine SeqRun.cons _ _ _ ⟨ofSlots (s + 1) n D Ψ, ⟨sz, (List.range (s + 1)).map R ++ regs.drop (s + 1)⟩, P (s + 1)⟩ _ _
        ?_ (ih (s + 1) (by omega))
      unfold SlotStep
      have hsl : s < regs.length := by omega
      have hget : ((List.range s).map R ++ regs.drop s)[s]? = some regs[s] := by
        rw [List.getElem?_append_right (by simp), List.length_map, List.length_range, Nat.sub_self, List.getElem?_drop,
          Nat.add_zero, List.getElem?_eq_getElem hsl]
      dsimp only
      rw [hget]
      refine ⟨⟨D s, R s, P (s + 1)⟩, ?_, ?_⟩
      · rw [slotOf_ofSlots_later hB (by omega) le_rfl]
        exact h s hsl
      · rw [putSlot_ofSlots hB (by omega)]
        congr 2
        rw [List.range_succ, List.map_append, List.append_assoc, List.set_append_right _ _ (by simp), List.length_map,
          List.length_range, Nat.sub_self]
        congr 1
        rw [List.drop_eq_getElem_cons hsl]
        rfl
  have h0 : ofSlots 0 n D Ψ = Ψ := by
    funext j
    unfold ofSlots
    rw [if_neg (by omega)]
  have := key B 0 (by omega)
  rw [h0] at this
  simpa [List.range_eq_range'] using this

theorem slotStep_unique {n : Nat} {run : Context → Context → Option Fault → Prop}
    (hr : ∀ c c1 f1 c2 f2, run c c1 f1 → run c c2 f2 → c1 = c2 ∧ f1 = f2) (b : Nat) (c c1 : BContext) (f1 : Option Fault)
    (c2 : BContext) (f2 : Option Fault) (h1 : SlotStep n run b c c1 f1) (h2 : SlotStep n run b c c2 f2) : c1 = c2 ∧ f1 = f2 := by
  unfold SlotStep at h1 h2
  cases hg : c.reg.regs[b]? with
  | none => rw [hg] at h1 h2; exact ⟨h1.1.trans h2.1.symm, h1.2.trans h2.2.symm⟩
  | some r =>
    rw [hg] at h1 h2
    obtain ⟨d, h1, e1⟩ := h1
    obtain ⟨d', h2, e2⟩ := h2
    obtain ⟨rfl, rfl⟩ := hr _ _ _ _ _ h1 h2
    exact ⟨e1.trans e2.symm, rfl⟩

/-! ## views -/

theorem UGate.runsOnView_unique {L n : Nat} {g : UGate} {c c1 c2 : Context} {f1 f2 : Option Fault}
    (h1 : g.RunsOnView L n c c1 f1) (h2 : g.RunsOnView L n c c2 f2) : c1 = c2 ∧ f1 = f2 := by
  obtain ⟨d1, h1, e1⟩ := h1
  obtain ⟨d2, h2, e2⟩ := h2
  obtain ⟨rfl, rfl⟩ := UGate.runsOn_unique h1 h2
  exact ⟨e1.trans e2.symm, rfl⟩

theorem UGate.runsOnView_iff {L n : Nat} {g : UGate} (h : g.swapsBuffer = false) {c c' : Context} {f : Option Fault} :
    g.RunsOnView L n c c' f ↔ g.RunsOn L n c c' f := by
  unfold UGate.RunsOnView
  simp [h]

theorem Gate.runsOnView_unique {L n : Nat} {rnd : Nat → ℝ} {g : Gate} {c c1 c2 : Context} {f1 f2 : Option Fault}
    (h1 : g.RunsOnView L n rnd c c1 f1) (h2 : g.RunsOnView L n rnd c c2 f2) : c1 = c2 ∧ f1 = f2 := by
  cases g with
  | det g => exact UGate.runsOnView_unique (g := g) h1 h2
  | prob t =>
    unfold Gate.RunsOnView at h1 h2
    dsimp only at h1 h2
    cases hs : t.select (rnd c.pos) with
    | error e => rw [hs] at h1 h2; exact ⟨h1.1.trans h2.1.symm, h1.2.trans h2.2.symm⟩
    | ok u => rw [hs] at h1 h2; exact UGate.runsOnView_unique (g := u) h1 h2
  | meas g => exact Gate.runsOn_unique (g := .meas g) h1 h2

theorem select_mem {G : Type} {t : ProbTable G} {r : ℝ} {u : G} (h : t.select r = .ok u) : u ∈ t.gates := by
  obtain ⟨i, -, h⟩ := bind_ok h
  cases hg : t.gates[i]? with
  | none => rw [hg] at h; cases h
  | some g => rw [hg] at h; cases h; exact List.mem_of_getElem? hg

/-- the gates that never swap buffers -/
def GateInPlace : Gate → Prop
  | .det g => g.swapsBuffer = false
  | .prob t => ∀ g ∈ t.gates, g.swapsBuffer = false
  | .meas _ => True

theorem Gate.runsOnView_iff {L n : Nat} {rnd : Nat → ℝ} {g : Gate} (h : GateInPlace g) {c c' : Context} {f : Option Fault} :
    g.RunsOnView L n rnd c c' f ↔ g.RunsOn L n rnd c c' f := by
  cases g with
  | det g => exact UGate.runsOnView_iff (g := g) h
  | prob t =>
    unfold Gate.RunsOnView Gate.RunsOn
    dsimp only
    cases hs : t.select (rnd c.pos) with
    | error e => exact Iff.rfl
    | ok u => exact UGate.runsOnView_iff (h u (select_mem hs))
  | meas g => exact Iff.rfl

theorem build_inPlace {d : GateDesc} {g : UGate} (hs : SmallMatrix d) (h : d.build = .ok g) : g.swapsBuffer = false := by
  cases d with
  | ident => cases h; rfl
  | globalPhase phase cs vs => obtain ⟨o, ho, h⟩ := bind_ok h; cases h; rfl
  | one k q cs vs => obtain ⟨o, ho, h⟩ := bind_ok h; cases h; rfl
  | swap a b cs vs => obtain ⟨o, ho, h⟩ := bind_ok h; cases h; rfl
  | ecr c t cs vs => obtain ⟨o, ho, h⟩ := bind_ok h; cases h; rfl
  | perm dst => obtain ⟨o, ho, h⟩ := bind_ok h; cases h; rfl
  | dense ts M cs vs u =>
    obtain ⟨g, hg, h⟩ := bind_ok h
    cases h
    obtain ⟨-, -, -, hr, hc, -⟩ := mkDense_ok hg
    have : ts.length ≤ 2 := hs
    unfold UGate.swapsBuffer
    dsimp only
    rw [hr, hc]
    interval_cases ts.length <;> rfl
  | sparse ts M cs vs => exact hs.elim
  | pauli p cs vs => obtain ⟨o, ho, h⟩ := bind_ok h; cases h; rfl
  | pauliRot p a cs vs => obtain ⟨o, ho, h⟩ := bind_ok h; cases h; rfl

theorem BContext.ext {a b : BContext} (h1 : a.psi = b.psi) (h2 : a.reg = b.reg) (h3 : a.pos = b.pos) : a = b := by
  cases a; cases b; simp_all

theorem Gate.runsBatched_unique {L B n : Nat} {rnd : Nat → ℝ} {g : Gate} {c c1 c2 : BContext} {f1 f2 : Option Fault}
    (h1 : g.RunsBatched L B n rnd c c1 f1) (h2 : g.RunsBatched L B n rnd c c2 f2) : c1 = c2 ∧ f1 = f2 := by
  cases g with
  | det g =>
    unfold Gate.RunsBatched at h1 h2
    dsimp only at h1 h2
    cases hu : g.update L B n with
    | error e => rw [hu] at h1 h2; exact ⟨h1.1.trans h2.1.symm, h1.2.trans h2.2.symm⟩
    | ok dev =>
      rw [hu] at h1 h2
      exact ⟨BContext.ext (h1.2.2.2.unique h2.2.2.2) (h1.2.1.trans h2.2.1.symm) (h1.2.2.1.trans h2.2.2.1.symm),
        h1.1.trans h2.1.symm⟩
  | prob t =>
    have hu := slotStep_unique (n := n) (run := Gate.RunsOnView L n rnd (.prob t))
      fun _ _ _ _ _ a b => Gate.runsOnView_unique (g := .prob t) a b
    exact SeqRun.unique hu h1 h2
  | meas g =>
    unfold Gate.RunsBatched at h1 h2
    dsimp only at h1 h2
    cases hc : g.checkBatched B n c.reg with
    | error e => rw [hc] at h1 h2; exact ⟨h1.1.trans h2.1.symm, h1.2.trans h2.2.symm⟩
    | ok _ =>
      rw [hc] at h1 h2
      have hu := slotStep_unique (n := n) (run := g.MeasureAndStore L n rnd)
        fun _ _ _ _ _ a b => MeasGate.measureAndStore_unique a b
      exact SeqRun.unique hu h1 h2

end Verif.Proofs
