import Verif.Proofs.GradientCalc
import Verif.Proofs.CircuitInverse
import Verif.Proofs.StateOps

/-! # The backpropagation loop computes derivatives -/

namespace Verif.Proofs
open Verif Verif.Spec Verif.Model Verif.Props
attribute [-simp] BitVec.getLsbD_eq_getElem

/-! ## a gate and its inverse -/

theorem updates_iff {u : UGate} (hv : Valid u) {L n : Nat} (hL : LanesOK L) (hn : n < 64) (ht : ∀ q ∈ UGate.ts u, q < n)
    (hc : ∀ p ∈ UGate.cs u, p.1 < n) (ψ ψ' : U64 → ℂ) (f : Option Fault) :
    (Gate.det u).UpdatesState L n ψ ψ' f ↔ ψ' = onState (2 ^ n) (opOf u) ψ ∧ f = none := by
  obtain ⟨dev, hdev, hr⟩ := update_valid hv hL hn (one_fits hn) ht hc
  have hr := hr ψ
  have e1 : onState (1 * 2 ^ n) (opOf u) ψ = onState (2 ^ n) (opOf u) ψ := by rw [Nat.one_mul]
  rw [e1] at hr
  constructor
  · rintro ⟨rnd, c', h, rfl⟩
    unfold Gate.RunsOn UGate.RunsOn at h
    dsimp only at h
    rw [hdev] at h
    exact ⟨h.2.2.2.unique hr, h.1⟩
  · rintro ⟨rfl, rfl⟩
    refine ⟨fun _ => 0, ⟨_, [], 0⟩, ?_, rfl⟩
    unfold Gate.RunsOn UGate.RunsOn
    dsimp only
    rw [hdev]
    exact ⟨rfl, rfl, rfl, hr⟩

theorem prot_updates_iff {p : PRot} {t : ℝ} (hv : Valid (p.fix t)) {L n : Nat} (hL : LanesOK L) (hn : n < 64)
    (hb : checkWithinBounds p.operands n = .ok ()) (ht : ∀ q ∈ UGate.ts (p.fix t), q < n)
    (hc : ∀ c ∈ UGate.cs (p.fix t), c.1 < n) (ψ ψ' : U64 → ℂ) (f : Option Fault) :
    (PGate.rot p).UpdatesState L n t ψ ψ' f ↔ ψ' = onState (2 ^ n) (opOf (p.fix t)) ψ ∧ f = none := by
  rw [← updates_iff hv hL hn ht hc ψ ψ' f]
  unfold PGate.UpdatesState Gate.UpdatesState PGate.RunsOn Gate.RunsOn PRot.RunsOn UGate.RunsOn
  dsimp only
  rw [rot_update hb]
  exact Iff.rfl

/-- undoing a gate, and its adjoint -/
theorem back_adjoint {u u' : UGate} (hv : Valid u) (hi : InverseHyp u) (hu : UnitaryHyp u) (h : u.inverse = .ok u') {n : Nat} (hn : n < 64)
    (ht : ∀ q ∈ UGate.ts u, q < n) :
    (∀ ψ, onState (2 ^ n) (opOf u') (onState (2 ^ n) (opOf u) ψ) = ψ) ∧
    ∀ φ v, inner (2 ^ n) φ (onState (2 ^ n) (opOf u) v) = inner (2 ^ n) (onState (2 ^ n) (opOf u') φ) v := by
  obtain ⟨hv', et, ec, -⟩ := inverse_matrix hv hi h
  have ht' : ∀ q ∈ UGate.ts u', q < n := by rw [et]; exact ht
  have hB : 1 * 2 ^ n ≤ 2 ^ 64 := one_fits hn
  have hB' : 2 ^ n ≤ 2 ^ 64 := by omega
  constructor
  · intro ψ
    have := onState_comp (dim := 2 ^ n) (f := opOf u') (g := opOf u) (by
      have := opOf_local (B := 1) ht'
      rw [Nat.one_mul] at this
      exact this) ψ
    rw [this]
    funext j
    unfold onState
    dsimp only
    rw [(inverse_valid hv hi h ψ).1]
    split <;> rfl
  · intro φ v
    have e1 : inner (2 ^ n) φ (onState (2 ^ n) (opOf u) v) = inner (2 ^ n) φ (opOf u v) :=
      inner_congr hB' (fun _ _ => rfl) fun j hj => if_pos hj
    have e2 : inner (2 ^ n) (onState (2 ^ n) (opOf u') φ) v = inner (2 ^ n) (opOf u' φ) v :=
      inner_congr hB' (fun j hj => if_pos hj) fun _ _ => rfl
    rw [e1, e2]
    have h3 := inner_applyMat hB (valid_targetsOK u) (valid_ctrlDisj hv) ht (matOf u) φ v
    have h4 : applyMat (UGate.ts u) (matDag (matOf u)) (UGate.cs u) φ = opOf u' φ := by
      conv_lhs => rw [← (inverse_valid hv hi h φ).2]
      exact applyMat_inverse (valid_targetsOK u) (valid_ctrlDisj hv) (fun r s hr hs => unitary_valid hv hu hr hs) (opOf u' φ)
    rw [Nat.one_mul, h4] at h3
    exact h3

/-! ## sequences -/

theorem seqRun_cons_det {ι C : Type} {S : ι → C → C → Option Fault → Prop} {i : ι} {is : List ι} {c c1 c2 : C} {f : Option Fault}
    (h : ∀ c' f, S i c c' f ↔ c' = c1 ∧ f = none) : SeqRun S (i :: is) c c2 f ↔ SeqRun S is c1 c2 f := by
  constructor
  · intro hr
    cases hr with
    | cons _ _ _ d _ _ h1 h2 =>
      obtain ⟨rfl, -⟩ := (h _ _).1 h1
      exact h2
    | stop _ _ _ _ e h1 => cases ((h _ _).1 h1).2
  · intro hr
    exact .cons _ _ _ _ _ _ ((h _ _).2 ⟨rfl, rfl⟩) hr

theorem grad_loop {C : Circuit} {L n : Nat} {eps : ℝ} {θ : String → Option ℝ} {s s' : GradState} {f : Option Fault} :
    SeqRun (C.GradAt L n eps θ) (List.range C.gates.length).reverse s s' f ↔
      SeqRun (Item.GradStep L n eps θ) C.gates.reverse s s' f := by
  refine seqRun_congr (List.rel_reverse (forall2_range _ _ rfl _ fun i hi c c' f => ?_))
  unfold Circuit.GradAt
  rw [List.getElem?_eq_getElem hi]

theorem undoesBoth_iff {upd : (U64 → ℂ) → (U64 → ℂ) → Option Fault → Prop} {V : (U64 → ℂ) → U64 → ℂ}
    (h : ∀ ψ ψ' f, upd ψ ψ' f ↔ ψ' = V ψ ∧ f = none) (s s' : GradState) (f : Option Fault) :
    UndoesBoth upd s s' f ↔ s' = ⟨V s.psi, V s.bi, s.grad⟩ ∧ f = none := by
  unfold UndoesBoth
  constructor
  · rintro ⟨b, f1, h1, h2⟩
    obtain ⟨rfl, rfl⟩ := (h _ _ _).1 h1
    obtain ⟨ψ, h3, rfl⟩ := h2
    obtain ⟨rfl, rfl⟩ := (h _ _ _).1 h3
    exact ⟨rfl, rfl⟩
  · rintro ⟨rfl, rfl⟩
    exact ⟨_, none, (h _ _ _).2 ⟨rfl, rfl⟩, _, (h _ _ _).2 ⟨rfl, rfl⟩, rfl⟩

/-! ## one line -/

/-- what the loop needs from a line: no condition, a unitary gate or a rotation without controls whose factors pass the tests -/
def _root_.Verif.Spec.Line.Gradable (l : Line) : Prop := l.cond = none ∧ match l.instr with
  | .gate d => UnitaryDesc d ∧ InverseDesc d
  | .rot r _ => FreeRot r ∧ dblEpsilon ≤ |rotScale r| ∧ ∀ p k cs vs, r = .pauli p k cs vs → dblEpsilon ≤ |p.coef.re|
  | _ => False

theorem scale_ok {r : RotDesc} {p : PRot} (h : r.build = .ok p) (hf : FreeRot r) (hs : dblEpsilon ≤ |rotScale r|)
    (hp : ∀ p k cs vs, r = .pauli p k cs vs → dblEpsilon ≤ |p.coef.re|) {eps : ℝ} (he : 0 < eps) :
    (PGate.rot p).scale eps = .ok (rotScale r) := by
  cases r with
  | axis a q k cs vs =>
    obtain ⟨o, ho, h⟩ := bind_ok (show (do let o ← mkOperands [q] cs vs; pure (PRot.axis a o k)) = .ok p from h)
    cases h
    unfold PGate.scale checkScale
    dsimp only
    rw [mul_one, if_neg (show ¬ |k| < dblEpsilon from not_lt.2 hs)]
    rfl
  | pauli q k cs vs =>
    obtain ⟨g, hg, h⟩ := bind_ok (show (do let g ← mkPauli q cs vs; pure (PRot.pauli g k)) = .ok p from h)
    cases h
    have hgp : g.p = q := (mkPauli_ok hg).1
    unfold PGate.scale checkScale
    dsimp only
    rw [hgp, if_neg (by rw [hf.2]; simpa using he), if_neg (not_lt.2 (hp q k cs vs rfl)),
      if_neg (show ¬ |k * q.coef.re| < dblEpsilon from not_lt.2 hs)]
    rfl

theorem grad_gate {d : GateDesc} {u u' : UGate} (hd : DescOK d) (hi : InverseDesc d) (h : d.build = .ok u) (h' : u.inverse = .ok u')
    {L n : Nat} (hL : LanesOK L) (hn : n < 64) (hq : ∀ q ∈ qubitsOf d, q < n) {eps : ℝ} {θ : String → Option ℝ} (s s' : GradState)
    (f : Option Fault) : Item.GradStep L n eps θ (.inl (.det u)) s s' f ↔
      s' = ⟨onState (2 ^ n) (opOf u') s.psi, onState (2 ^ n) (opOf u') s.bi, s.grad⟩ ∧ f = none := by
  obtain ⟨hv, -, hs⟩ := build_valid hd h
  obtain ⟨b1, b2⟩ := build_bounds hs hq
  obtain ⟨hv', et, ec, -⟩ := inverse_matrix hv (inverseHyp_of hd h hi) h'
  have key := fun ψ ψ' f => updates_iff hv' hL hn (by rw [et]; exact b1) (by rw [ec]; exact b2) ψ ψ' f
  have e : Gate.inverse (.det u) = .ok (.det u') := by
    show (do let g' ← u.inverse; pure (Gate.det g')) = _
    rw [h']; rfl
  have hu : ∀ s1, Item.Undone L n θ (.inl (.det u)) s1 s' f ↔
      s' = ⟨onState (2 ^ n) (opOf u') s1.psi, onState (2 ^ n) (opOf u') s1.bi, s1.grad⟩ ∧ f = none := fun s1 => by
    unfold Item.Undone
    dsimp only
    rw [e]
    exact undoesBoth_iff key s1 s' f
  unfold Item.GradStep Item.Contributes
  constructor
  · rintro ⟨s1, f1, ⟨rfl, rfl⟩, h2⟩
    exact (hu s1).1 h2
  · intro h2
    exact ⟨s, none, ⟨rfl, rfl⟩, (hu s).2 h2⟩

theorem grad_rot_scale {r : RotDesc} {p : PRot} (h : r.build = .ok p) {eps sc : ℝ} (hsc : (PGate.rot p).scale eps = .ok sc) {L n : Nat} (hL : LanesOK L) (hn : n < 64)
    (hq : ∀ q ∈ qubitsOf (r.at 0), q < n) {θ : String → Option ℝ} {key : String} {t : ℝ} (ht : θ key = some t)
    (s s' : GradState) (f : Option Fault) : Item.GradStep L n eps θ (.inr (.rot p, key)) s s' f ↔
      s' = ⟨onState (2 ^ n) (opOf (p.inverse.fix t)) s.psi, onState (2 ^ n) (opOf (p.inverse.fix t)) s.bi,
        gradAdd s.grad key (-sc *
          (inner (2 ^ n) s.bi (onState (2 ^ n) (operatorOf (r.at (-Real.pi / sc))) s.psi)).re)⟩ ∧ f = none := by
  have hb := rot_bounds h hn hq
  have fwd : ∀ t, Valid (p.fix t) ∧ opOf (p.fix t) = operatorOf (r.at t) ∧ (∀ q ∈ UGate.ts (p.fix t), q < n) ∧ ∀ c ∈ UGate.cs (p.fix t), c.1 < n := by
    intro t
    obtain ⟨hv, ho, hs⟩ := build_valid (rot_descOK r t) (rot_build h t)
    obtain ⟨b1, b2⟩ := build_bounds hs (by rw [rot_qubits]; exact hq)
    exact ⟨hv, ho, b1, b2⟩
  have bwd : ∀ ψ ψ' f, (PGate.rot p.inverse).UpdatesState L n t ψ ψ' f ↔
      ψ' = onState (2 ^ n) (opOf (p.inverse.fix t)) ψ ∧ f = none := by
    obtain ⟨hv, -, b1, b2⟩ := fwd t
    obtain ⟨hv', et, ec, -⟩ := inverse_matrix hv (inverseHyp_of (rot_descOK r t) (rot_build h t) (inverse_rot r t)) (prot_inverse_fix p t)
    exact fun ψ ψ' f => prot_updates_iff hv' hL hn (by rw [prot_inverse_operands]; exact hb) (by rw [et]; exact b1) (by rw [ec]; exact b2) ψ ψ' f
  have hA : ∀ ψ ψ' f, (PGate.rot p).UpdatesState L n (-Real.pi / sc) ψ ψ' f ↔
      ψ' = onState (2 ^ n) (operatorOf (r.at (-Real.pi / sc))) ψ ∧ f = none := by
    obtain ⟨hv, ho, b1, b2⟩ := fwd (-Real.pi / sc)
    intro ψ ψ' f
    have := prot_updates_iff hv hL hn hb b1 b2 ψ ψ' f
    rw [ho] at this
    exact this
  have hcon : ∀ s1 f1, Item.Contributes L n eps (.inr (.rot p, key)) s s1 f1 ↔ s1 = { s with grad := gradAdd s.grad key (-sc *
          (inner (2 ^ n) s.bi (onState (2 ^ n) (operatorOf (r.at (-Real.pi / sc))) s.psi)).re) } ∧ f1 = none := by
    intro s1 f1
    unfold Item.Contributes
    dsimp only
    rw [hsc]
    dsimp only
    constructor
    · rintro ⟨A, f2, h1, h2⟩
      obtain ⟨rfl, rfl⟩ := (hA _ _ _).1 h1
      dsimp only at h2
      rw [innerProduct_eq (by omega)] at h2
      exact h2
    · intro h2
      refine ⟨_, none, (hA _ _ _).2 ⟨rfl, rfl⟩, ?_⟩
      dsimp only
      rw [innerProduct_eq (by omega)]
      exact h2
  have hu : ∀ s1, Item.Undone L n θ (.inr (.rot p, key)) s1 s' f ↔ s' = ⟨onState (2 ^ n) (opOf (p.inverse.fix t)) s1.psi,
      onState (2 ^ n) (opOf (p.inverse.fix t)) s1.bi, s1.grad⟩ ∧ f = none := fun s1 => by
    unfold Item.Undone
    dsimp only
    rw [show (PGate.rot p).inverse = .ok (.rot p.inverse) from rfl]
    dsimp only
    rw [ht]
    exact undoesBoth_iff bwd s1 s' f
  unfold Item.GradStep
  constructor
  · rintro ⟨s1, f1, h1, h2⟩
    obtain ⟨rfl, rfl⟩ := (hcon _ _).1 h1
    exact (hu _).1 h2
  · intro h2
    exact ⟨_, none, (hcon _ _).2 ⟨rfl, rfl⟩, (hu _).2 h2⟩

theorem grad_rot {r : RotDesc} {p : PRot} (h : r.build = .ok p) (hf : FreeRot r) (hsc : dblEpsilon ≤ |rotScale r|)
    (hp : ∀ p k cs vs, r = .pauli p k cs vs → dblEpsilon ≤ |p.coef.re|) {L n : Nat} (hL : LanesOK L) (hn : n < 64)
    (hq : ∀ q ∈ qubitsOf (r.at 0), q < n) {eps : ℝ} (he : 0 < eps) {θ : String → Option ℝ} {key : String} {t : ℝ} (ht : θ key = some t)
    (s s' : GradState) (f : Option Fault) : Item.GradStep L n eps θ (.inr (.rot p, key)) s s' f ↔
      s' = ⟨onState (2 ^ n) (opOf (p.inverse.fix t)) s.psi, onState (2 ^ n) (opOf (p.inverse.fix t)) s.bi,
        gradAdd s.grad key (-rotScale r *
          (inner (2 ^ n) s.bi (onState (2 ^ n) (operatorOf (r.at (-Real.pi / rotScale r))) s.psi)).re)⟩ ∧ f = none :=
  grad_rot_scale h (scale_ok h hf hsc hp he) hL hn hq ht s s' f

/-! ## the loop -/

/-- the state after the lines -/
noncomputable def runLines (n : Nat) (θ : String → Option ℝ) (ls : List Line) (ψ : U64 → ℂ) : U64 → ℂ :=
  ls.foldl (fun φ l => onState (2 ^ n) (Line.operator θ l) φ) ψ

theorem runLines_snoc (n : Nat) (θ : String → Option ℝ) (ls : List Line) (l : Line) (ψ : U64 → ℂ) :
    runLines n θ (ls ++ [l]) ψ = onState (2 ^ n) (Line.operator θ l) (runLines n θ ls ψ) := by
  unfold runLines
  rw [List.foldl_append]
  rfl

theorem mapM_snoc {α β : Type} {f : α → Res β} {as : List α} {a : α} {bs : List β} (h : (as ++ [a]).mapM f = .ok bs) :
    ∃ bs1 b, as.mapM f = .ok bs1 ∧ f a = .ok b ∧ bs = bs1 ++ [b] := by
  rw [List.mapM_append] at h
  obtain ⟨bs1, h1, h⟩ := bind_ok h
  obtain ⟨bs2, h2, h⟩ := bind_ok h
  rw [List.mapM_cons] at h2
  obtain ⟨b, hb, h2⟩ := bind_ok h2
  rw [List.mapM_nil] at h2
  obtain ⟨_, h3, h2⟩ := bind_ok h2
  cases h3
  cases h2
  cases h
  exact ⟨bs1, b, h1, hb, rfl⟩

theorem deriv_fixed {ψ : ℝ → U64 → ℂ} {d : U64 → ℂ} {t0 : ℝ} (h : Deriv ψ d t0) (g : GateDesc) (dim : Nat) :
    Deriv (fun t => onState dim (operatorOf g) (ψ t)) (onState dim (operatorOf g) d) t0 :=
  deriv_onState (F := fun _ => operatorOf g) h (deriv_applyMat h _ _ _)

theorem grad_lines {ls : List Line} {gs gs' : List Item} (hb : ls.mapM (fun l => l.instr.build) = .ok gs) (hi : gs.mapM Item.inverse = .ok gs')
    (hok : ∀ l ∈ ls, l.instr.OK) (hg : ∀ l ∈ ls, l.Gradable) {L n : Nat} (hL : LanesOK L) (hn : n < 64)
    (hq : ∀ l ∈ ls, ∀ q ∈ l.instr.qubits, q < n) {eps : ℝ} (he : 0 < eps) {θ : String → Option ℝ} (hk : KeysGiven ls θ)
    (ψ0 b : U64 → ℂ) (gr : String → Option ℝ) :
    ∃ b' gr', (∀ s' f, SeqRun (Item.GradStep L n eps θ) gs.reverse ⟨runLines n θ ls ψ0, b, gr⟩ s' f ↔ s' = ⟨ψ0, b', gr'⟩ ∧ f = none) ∧
      ∀ key, (∀ t0, θ key = some t0 → ∃ d, Deriv (fun t => runLines n (tune θ key t) ls ψ0) d t0 ∧
          ∀ x, gr key = some x → gr' key = some (x + 2 * (inner (2 ^ n) b d).re)) ∧
        ((∀ l ∈ ls, l.instr.key? ≠ some key) → gr' key = gr key) := by
  induction ls using List.reverseRecOn generalizing gs gs' b gr with
  | nil =>
    cases hb
    refine ⟨b, gr, fun s' f => ⟨fun h => ?_, ?_⟩, fun key => ⟨fun t0 ht => ⟨fun _ => 0, fun j => hasDerivAt_const t0 _, fun x hx => ?_⟩, fun _ => rfl⟩⟩
    · cases h; exact ⟨rfl, rfl⟩
    · rintro ⟨rfl, rfl⟩; exact .nil _
    · rw [hx]; simp [inner]
  | append_singleton ls l ih =>
    obtain ⟨gs1, g, hb1, hbl, rfl⟩ := mapM_snoc hb
    obtain ⟨gs1', g', hi1, hil, rfl⟩ := mapM_snoc hi
    have mem : ∀ l' ∈ ls, l' ∈ ls ++ [l] := fun l' h => List.mem_append_left _ h
    have hl : l ∈ ls ++ [l] := List.mem_append_right _ List.mem_cons_self
    have ih := fun b gr => ih hb1 hi1 (fun l h => hok l (mem l h)) (fun l h => hg l (mem l h)) (fun l h => hq l (mem l h))
      (fun l h => hk l (mem l h)) b gr
    have hokl := hok l hl
    have hgl := hg l hl
    have hql := hq l hl
    have hkl := hk l hl
    clear hb hi hok hg hq hk
    have hB' : 2 ^ n ≤ 2 ^ 64 := pow64 (by omega)
    obtain ⟨ins, cond⟩ := l
    obtain ⟨hc, hgl⟩ := hgl
    dsimp only at hc hgl hokl hql hkl hbl
    subst hc
    rw [List.reverse_append, List.reverse_singleton, List.singleton_append, runLines_snoc]
    cases ins with
    | gate d =>
      obtain ⟨u, hu, hb⟩ := bind_ok (show (do let g ← d.build; pure (Sum.inl (Gate.det g))) = .ok g from hbl)
      cases hb
      obtain ⟨w, hw, hi⟩ := bind_ok (show (do let g' ← Gate.inverse (.det u); pure (Sum.inl g')) = .ok g' from hil)
      obtain ⟨u', hu', hw⟩ := bind_ok (show (do let g' ← u.inverse; pure (Gate.det g')) = .ok w from hw)
      cases hw
      cases hi
      obtain ⟨hv, ho, hs⟩ := build_valid hokl hu
      obtain ⟨b1, b2⟩ := build_bounds hs hql
      obtain ⟨hback, hadj⟩ := back_adjoint hv (inverseHyp_of hokl hu hgl.2) (unitaryHyp_of hokl hu hgl.1) hu' hn b1
      rw [ho] at hback hadj
      obtain ⟨b', gr', h1, h2⟩ := ih (onState (2 ^ n) (opOf u') b) gr
      refine ⟨b', gr', fun s' f => ?_, fun key => ⟨fun t0 ht => ?_, fun hno => (h2 key).2 fun l h => hno l (mem l h)⟩⟩
      · rw [seqRun_cons_det (grad_gate hokl hgl.2 hu hu' hL hn hql _)]
        dsimp only
        have e : Line.operator θ ⟨.gate d, none⟩ = operatorOf d := rfl
        rw [e, hback]
        exact h1 s' f
      · obtain ⟨dψ, hd, hgr⟩ := (h2 key).1 t0 ht
        refine ⟨onState (2 ^ n) (operatorOf d) dψ, ?_, fun x hx => ?_⟩
        · have := deriv_fixed hd d (2 ^ n)
          simp only [runLines_snoc]
          exact this
        · rw [hadj, hgr x hx]
    | rot r k =>
      obtain ⟨p, hp, hb⟩ := bind_ok (show (do let p ← r.build; pure (Sum.inr (PGate.rot p, k))) = .ok g from hbl)
      cases hb
      obtain ⟨tk, htk⟩ := hkl k rfl
      obtain ⟨hf, hsc, hpc⟩ := hgl
      have hs0 : rotScale r ≠ 0 := by
        intro e
        rw [e, abs_zero] at hsc
        have : 0 < dblEpsilon := by unfold dblEpsilon; positivity
        linarith
      obtain ⟨hv, ho, hs⟩ := build_valid (rot_descOK r tk) (rot_build hp tk)
      obtain ⟨b1, b2⟩ := build_bounds hs (by rw [rot_qubits]; exact hql)
      have hud : UnitaryDesc (r.at tk) := by
        cases r with
        | axis a _ _ _ _ => cases a <;> exact ⟨by simp, by simp⟩
        | pauli q _ _ _ => exact hf.2
      obtain ⟨hback, hadj⟩ := back_adjoint hv (inverseHyp_of (rot_descOK r tk) (rot_build hp tk) (inverse_rot r tk))
        (unitaryHyp_of (rot_descOK r tk) (rot_build hp tk) hud) (prot_inverse_fix p tk) hn b1
      rw [ho] at hback hadj
      have hop : ∀ θ' : String → Option ℝ, ∀ t, θ' k = some t → Line.operator θ' ⟨.rot r k, none⟩ = operatorOf (r.at t) := by
        intro θ' t h
        unfold Line.operator
        dsimp only
        rw [h]
      obtain ⟨b', gr', h1, h2⟩ := ih (onState (2 ^ n) (opOf (p.inverse.fix tk)) b) (gradAdd gr k (-rotScale r *
          (inner (2 ^ n) b (onState (2 ^ n) (operatorOf (r.at (-Real.pi / rotScale r)))
            (onState (2 ^ n) (operatorOf (r.at tk)) (runLines n θ ls ψ0)))).re))
      refine ⟨b', gr', fun s' f => ?_, fun key => ⟨fun t0 ht => ?_, fun hno => ?_⟩⟩
      · rw [seqRun_cons_det (grad_rot hp hf hsc hpc hL hn hql he htk _)]
        dsimp only
        rw [hop θ tk htk, hback]
        exact h1 s' f
      · obtain ⟨dψ, hd, hgr⟩ := (h2 key).1 t0 ht
        by_cases hkey : key = k
        · subst hkey
          obtain rfl : tk = t0 := by rw [htk] at ht; exact Option.some.inj ht
          have ht0 : tune θ key tk = θ := by
            funext k; unfold tune; split
            · next e => rw [e, htk]
            · rfl
          have hd' := deriv_onState (dim := 2 ^ n) (F := fun t => operatorOf (r.at t)) hd
            (deriv_rot hf (fun q hq => (hql q hq).trans hn) hs0 hd)
          rw [ht0] at hd'
          refine ⟨fun j => if j.toNat < 2 ^ n then operatorOf (r.at tk) dψ j + (-(rotScale r / 2 : ℝ) : ℂ) *
              operatorOf (r.at (-Real.pi / rotScale r)) (operatorOf (r.at tk) (runLines n θ ls ψ0)) j else dψ j, ?_, fun x hx => ?_⟩
          rotate_left
          · rw [hgr (x + -rotScale r * (inner (2 ^ n) b (onState (2 ^ n) (operatorOf (r.at (-Real.pi / rotScale r)))
                (onState (2 ^ n) (operatorOf (r.at tk)) (runLines n θ ls ψ0)))).re) (by unfold gradAdd; rw [if_pos rfl, hx]; rfl), ← hadj]
            congr 1
            have hlocal : onState (2 ^ n) (operatorOf (r.at (-Real.pi / rotScale r))) (onState (2 ^ n) (operatorOf (r.at tk)) (runLines n θ ls ψ0)) =
                onState (2 ^ n) (fun φ => operatorOf (r.at (-Real.pi / rotScale r)) (operatorOf (r.at tk) φ)) (runLines n θ ls ψ0) := by
              refine onState_comp ?_ _
              obtain ⟨hv2, ho2, hs2⟩ := build_valid (rot_descOK r (-Real.pi / rotScale r)) (rot_build hp (-Real.pi / rotScale r))
              obtain ⟨c1, c2⟩ := build_bounds hs2 (by rw [rot_qubits]; exact hql)
              have := opOf_local (B := 1) c1
              rw [Nat.one_mul, ho2] at this
              exact this
            have e1 : inner (2 ^ n) b (fun j => if j.toNat < 2 ^ n then operatorOf (r.at tk) dψ j + (-(rotScale r / 2 : ℝ) : ℂ) *
                operatorOf (r.at (-Real.pi / rotScale r)) (operatorOf (r.at tk) (runLines n θ ls ψ0)) j else dψ j) =
                inner (2 ^ n) b (onState (2 ^ n) (operatorOf (r.at tk)) dψ) + (-(rotScale r / 2 : ℝ) : ℂ) *
                  inner (2 ^ n) b (onState (2 ^ n) (operatorOf (r.at (-Real.pi / rotScale r)))
                    (onState (2 ^ n) (operatorOf (r.at tk)) (runLines n θ ls ψ0))) := by
              rw [← inner_smul_right, ← inner_add_right, hlocal]
              refine inner_congr hB' (fun _ _ => rfl) fun j hj => ?_
              unfold onState
              rw [if_pos hj, if_pos hj, if_pos hj]
            rw [e1, Complex.add_re, ← Complex.ofReal_neg, Complex.re_ofReal_mul]
            ring
          · simp only [runLines_snoc]
            have e3 : (fun t => onState (2 ^ n) (Line.operator (tune θ key t) ⟨.rot r key, none⟩) (runLines n (tune θ key t) ls ψ0)) =
                fun t => onState (2 ^ n) (operatorOf (r.at t)) (runLines n (tune θ key t) ls ψ0) := by
              funext t
              rw [hop _ t (by unfold tune; rw [if_pos rfl])]
            rw [e3]
            exact hd'
        · refine ⟨onState (2 ^ n) (operatorOf (r.at tk)) dψ, ?_, fun x hx => ?_⟩
          · have := deriv_fixed hd (r.at tk) (2 ^ n)
            simp only [runLines_snoc]
            have e3 : (fun t => onState (2 ^ n) (Line.operator (tune θ key t) ⟨.rot r k, none⟩) (runLines n (tune θ key t) ls ψ0)) =
                fun t => onState (2 ^ n) (operatorOf (r.at tk)) (runLines n (tune θ key t) ls ψ0) := by
              funext t
              rw [hop _ tk (by unfold tune; rw [if_neg (Ne.symm hkey), htk])]
            rw [e3]
            exact this
          · rw [hadj, hgr x (by unfold gradAdd; rw [if_neg hkey, hx])]
      · rw [(h2 key).2 fun l h => hno l (mem l h)]
        unfold gradAdd
        rw [if_neg]
        rintro rfl
        exact hno _ hl rfl
    | choice => exact hgl.elim
    | measure => exact hgl.elim
    | pchoice => exact hgl.elim

end Verif.Proofs
