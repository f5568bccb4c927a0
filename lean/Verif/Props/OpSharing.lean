import Verif.Proofs.OpSharing

/-!
# C85: which operator objects share terms

`OWorld.Run` (Model/OpHandle) executes programs on memory: `Operator` and `OperatorBatched` objects are handles.  `OStore.run`
(Spec/OpSharing) has no addresses: objects denote cells.
-/

namespace Verif.Props
open Verif Verif.Model Verif.Spec Verif.Proofs

/-- all objects show the terms that the specification says; the slots of a batch are found through its row pointers -/
structure OShows (w : OWorld) (s : OStore) : Prop where
  op : ∀ x c v, s.op x = some (c, v) → ∃ o, w.op x = some o ∧ o.terms w.heap = s.val c ∧ o.isView = v
  bat : ∀ X cs, s.bat X = some cs → ∃ H, w.bat X = some H ∧ (H.value w.heap).getOperators = .ok (cs.map fun c => ⟨s.val c, true, false⟩)
  noop : ∀ x, s.op x = none → w.op x = none
  nobat : ∀ X, s.bat X = none → w.bat X = none

theorem getOperators_slots {o : OpB} {l : List (List PauliOp)} (h : Slots o l) :
    o.getOperators = .ok (l.map fun ts => ⟨ts, true, false⟩) := by
  have h1 : ∀ b (hb : b < l.length), o.getOperatorAt b = .ok ⟨l[b], true, false⟩ := by
    intro b hb
    have hb' : b < o.batchSize := h.size ▸ hb
    unfold OpB.getOperatorAt
    rw [dif_pos hb', h.subview ⟨b, hb'⟩]; rfl
  unfold OpB.getOperators
  rw [h.size]
  have key : ∀ (bs : List Nat) (hbs : ∀ b ∈ bs, b < l.length),
      bs.mapM o.getOperatorAt = .ok (bs.attach.map fun b => (⟨l[b.1]'(hbs b.1 b.2), true, false⟩ : Op)) := by
    intro bs
    induction bs with
    | nil => intro _; rfl
    | cons b bs ih =>
      intro hbs
      rw [List.mapM_cons, h1 b (hbs b (by simp)), ih (fun c hc => hbs c (by simp [hc]))]
      show Except.ok _ = Except.ok _
      simp [Function.comp_def]
  rw [key _ fun b hb => List.mem_range.1 hb]
  congr 1
  apply List.ext_getElem
  · simp
  · intro i h1 h2
    simp

theorem getOperators_at {o : OpB} {cs : List Nat} {g : Nat → Op} (h : o.getOperators = .ok (cs.map g)) {i : Nat} (hi : i < cs.length) :
    o.getOperatorAt i = .ok (g cs[i]) := by
  unfold OpB.getOperators at h
  have key : ∀ (bs : List Nat) (r : List Op), bs.mapM o.getOperatorAt = .ok r →
      bs.length = r.length ∧ ∀ j (h1 : j < bs.length) (h2 : j < r.length), o.getOperatorAt bs[j] = .ok r[j] := by
    intro bs
    induction bs with
    | nil => intro r hr; cases hr; exact ⟨rfl, fun j h1 => absurd h1 (Nat.not_lt_zero j)⟩
    | cons b bs ih =>
      intro r hr
      rw [List.mapM_cons] at hr
      cases hb : o.getOperatorAt b with
      | error e => rw [hb] at hr; cases hr
      | ok v =>
        cases hbs : bs.mapM o.getOperatorAt with
        | error e => rw [hb, hbs] at hr; cases hr
        | ok vs =>
          rw [hb, hbs] at hr
          cases hr
          obtain ⟨h1, h2⟩ := ih vs hbs
          refine ⟨by simp [h1], fun j hj1 hj2 => ?_⟩
          cases j with
          | zero => exact hb
          | succ j => exact h2 j (by simpa using hj1) (by simpa using hj2)
  obtain ⟨h1, h2⟩ := key _ _ h
  have := h2 i (by rw [h1]; simpa using hi) (by simpa using hi)
  simpa using this

theorem oshows_of {w : OWorld} {s : OStore} {ρ : Nat → Nat × Nat} (R : OPic w s ρ) : OShows w s := by
  refine ⟨fun x c v h => ?_, fun X cs h => ?_, R.opNone, R.batNone⟩
  · obtain ⟨o, h1, h2, h3, -⟩ := R.getOp h
    exact ⟨o, h1, h2, h3⟩
  · obtain ⟨H, h1, h2, -⟩ := R.getBat h
    refine ⟨H, h1, ?_⟩
    rw [h2, getOperators_slots (slots_ofLists _), List.map_map]
    rfl

/-- **Programs on memory refine programs on cells**: every program has exactly one result, in which all objects show the terms that the
specification says; it ends with an exception exactly when the specification says so, and nothing is read or written out of range.
`codeNorm` are the terms that `optimize` makes (C27).  Missing: `load` of a batch that another object denotes as well, for which it
fails (`C85_load_counterexample`). -/
theorem C85_sharing_partial (P : List OCmd) :
    match OStore.empty.run codeNorm P with
    | .finished s => ∃ w0, OShows w0 s ∧ ∀ w f, OWorld.Run OWorld.empty P w f ↔ w = w0 ∧ f = none
    | .stopped s => ∃ w0 msg, OShows w0 s ∧ ∀ w f, OWorld.Run OWorld.empty P w f ↔ w = w0 ∧ f = some (.throw msg)
    | .unspecified => True := by
  have h := run_ok P opic_empty
  cases hr : OStore.empty.run codeNorm P with
  | finished s =>
    rw [hr] at h
    obtain ⟨w0, ρ, R, h⟩ := h
    exact ⟨w0, oshows_of R, h⟩
  | stopped s =>
    rw [hr] at h
    obtain ⟨w0, ρ, msg, R, h⟩ := h
    exact ⟨w0, msg, oshows_of R, h⟩
  | unspecified => trivial

/-- a program inside the scope: sharing, copies, a view changed in place, a refused `load` at the end -/
example (p q : PauliOp) : ∃ s, OStore.empty.run codeNorm [.newB "X" [[p], [q]], .view "x" "X" 1, .copy "y" "x", .scaleAssign "x" 2,
    .add "z" "x" "y", .load "z" [p]] = .stopped s ∧ s.op "z" = some (3, false) ∧ s.val 3 = [q.scale 2, q] :=
  ⟨_, rfl, rfl, rfl⟩

/-- `codeNorm` is what `optimize` computes (C27 says what it means) -/
theorem codeNorm_optimize (ts : List PauliOp) : ∃ o, (Op.ofTerms ts).optimize = .ok o ∧ o.terms = codeNorm ts := ⟨_, rfl, rfl⟩

/-! ## independence of copies, coupling of views -/

theorem withOp_done {s s' : OStore} {x : String} {k : Nat → Bool → OOutcome} (h : s.withOp x k = .done s') :
    ∃ c v, s.op x = some (c, v) ∧ k c v = .done s' := by
  unfold OStore.withOp at h
  cases hx : s.op x with
  | none => rw [hx] at h; cases h
  | some cv => rw [hx] at h; exact ⟨cv.1, cv.2, rfl, h⟩

theorem withBat_done {s s' : OStore} {X : String} {k : List Nat → OOutcome} (h : s.withBat X k = .done s') :
    ∃ cs, s.bat X = some cs ∧ k cs = .done s' := by
  unfold OStore.withBat at h
  cases hx : s.bat X with
  | none => rw [hx] at h; cases h
  | some cs => rw [hx] at h; exact ⟨cs, rfl, h⟩

/-- how one command changes the store -/
inductive OEffect (s : OStore) : OCmd → OStore → Prop
  | fresh (c : OCmd) (x : String) (ts : List PauliOp) (h : c.rebinds x) : OEffect s c (s.fresh x ts)
  | batch (c : OCmd) (X : String) (ls : List (List PauliOp)) (h : c.rebindsB X) : OEffect s c (s.freshBatch X ls)
  | set (c : OCmd) (x : String) (d : Nat) (v : Bool) (ts : List PauliOp) (h : c.touches x) (hx : s.op x = some (d, v)) :
      OEffect s c (s.set d ts)
  | share (x y : String) (d : Nat) (v : Bool) (hy : s.op y = some (d, v)) :
      OEffect s (.share x y) { s with op := Function.update s.op x (some (d, v)) }
  | shareB (X Y : String) (cs : List Nat) (hY : s.bat Y = some cs) :
      OEffect s (.shareB X Y) { s with bat := Function.update s.bat X (some cs) }
  | view (x X : String) (i : Nat) (cs : List Nat) (hX : s.bat X = some cs) (hi : i < cs.length) :
      OEffect s (.view x X i) { s with op := Function.update s.op x (some (cs[i], true)) }

theorem ite_done {p : Prop} {_ : Decidable p} {a b : OOutcome} {s : OStore} (h : (if p then a else b) = .done s) :
    (p ∧ a = .done s) ∨ (¬ p ∧ b = .done s) := by
  by_cases hp : p
  · rw [if_pos hp] at h; exact Or.inl ⟨hp, h⟩
  · rw [if_neg hp] at h; exact Or.inr ⟨hp, h⟩

theorem effect_of {norm : List PauliOp → List PauliOp} {s s' : OStore} {c : OCmd} (h : s.step norm c = .done s') : OEffect s c s' := by
  cases c with
  | new x ts => cases h; exact .fresh _ x ts rfl
  | share x y => obtain ⟨d, v, hy, h⟩ := withOp_done h; cases h; exact .share x y d v hy
  | copy x y => obtain ⟨d, v, hy, h⟩ := withOp_done h; cases h; exact .fresh _ x _ rfl
  | load x ts =>
    obtain ⟨d, v, hy, h⟩ := withOp_done h
    rcases ite_done h with ⟨_, h⟩ | ⟨_, h⟩ <;> cases h
    exact .set _ x d v ts rfl hy
  | optimize x =>
    obtain ⟨d, v, hy, h⟩ := withOp_done h
    rcases ite_done h with ⟨_, h⟩ | ⟨_, h⟩ <;> cases h
    exact .fresh _ x _ rfl
  | scaleAssign x a => obtain ⟨d, v, hy, h⟩ := withOp_done h; cases h; exact .set _ x d v _ rfl hy
  | mulPauliAssign x p => obtain ⟨d, v, hy, h⟩ := withOp_done h; cases h; exact .set _ x d v _ rfl hy
  | dagger x y => obtain ⟨d, v, hy, h⟩ := withOp_done h; cases h; exact .fresh _ x _ rfl
  | scale x y a => obtain ⟨d, v, hy, h⟩ := withOp_done h; cases h; exact .fresh _ x _ rfl
  | mulPauli x y p => obtain ⟨d, v, hy, h⟩ := withOp_done h; cases h; exact .fresh _ x _ rfl
  | addPauli x y p => obtain ⟨d, v, hy, h⟩ := withOp_done h; cases h; exact .fresh _ x _ rfl
  | add x y z =>
    obtain ⟨d, v, hy, h⟩ := withOp_done h; obtain ⟨d', v', hy', h⟩ := withOp_done h; cases h; exact .fresh _ x _ rfl
  | sub x y z =>
    obtain ⟨d, v, hy, h⟩ := withOp_done h; obtain ⟨d', v', hy', h⟩ := withOp_done h; cases h; exact .fresh _ x _ rfl
  | mul x y z =>
    obtain ⟨d, v, hy, h⟩ := withOp_done h; obtain ⟨d', v', hy', h⟩ := withOp_done h; cases h; exact .fresh _ x _ rfl
  | newB X ls => cases h; exact .batch _ X ls rfl
  | ofOps X ys =>
    unfold OStore.step at h
    dsimp only at h
    cases hl : s.lists ys with
    | none => rw [hl] at h; cases h
    | some ls => rw [hl] at h; cases h; exact .batch _ X ls rfl
  | shareB X Y => obtain ⟨cs, hY, h⟩ := withBat_done h; cases h; exact .shareB X Y cs hY
  | copyB X Y => obtain ⟨cs, hY, h⟩ := withBat_done h; cases h; exact .batch _ X _ rfl
  | loadB X ls =>
    obtain ⟨cs, hY, h⟩ := withBat_done h
    rcases ite_done h with ⟨_, h⟩ | ⟨_, h⟩
    · rcases ite_done h with ⟨_, h⟩ | ⟨_, h⟩ <;> cases h
      exact .batch _ X _ rfl
    · cases h
  | daggerB X Y => obtain ⟨cs, hY, h⟩ := withBat_done h; cases h; exact .batch _ X _ rfl
  | negB X Y => obtain ⟨cs, hY, h⟩ := withBat_done h; cases h; exact .batch _ X _ rfl
  | addB X Y Z =>
    obtain ⟨cs, hY, h⟩ := withBat_done h; obtain ⟨ds, hZ, h⟩ := withBat_done h
    rcases ite_done h with ⟨_, h⟩ | ⟨_, h⟩ <;> cases h
    exact .batch _ X _ rfl
  | mulB X Y Z =>
    obtain ⟨cs, hY, h⟩ := withBat_done h; obtain ⟨ds, hZ, h⟩ := withBat_done h
    rcases ite_done h with ⟨_, h⟩ | ⟨_, h⟩ <;> cases h
    exact .batch _ X _ rfl
  | view x X i =>
    obtain ⟨cs, hY, h⟩ := withBat_done h
    by_cases hi : i < cs.length
    · rw [dif_pos hi] at h; cases h; exact .view x X i cs hY hi
    · rw [dif_neg hi] at h; cases h
  | getAt x X i =>
    obtain ⟨cs, hY, h⟩ := withBat_done h
    by_cases hi : i < cs.length
    · rw [dif_pos hi] at h; cases h; exact .fresh _ x _ rfl
    · rw [dif_neg hi] at h; cases h

/-- all objects denote cells in use -/
structure CellsBounded (s : OStore) : Prop where
  op : ∀ x c v, s.op x = some (c, v) → c < s.cells
  bat : ∀ X cs, s.bat X = some cs → ∀ c ∈ cs, c < s.cells

theorem bounded_of {w : OWorld} {s : OStore} {ρ : Nat → Nat × Nat} (R : OPic w s ρ) : CellsBounded s :=
  ⟨fun x c v h => (R.opSome x c v h).1, fun X cs h => (R.batSome X cs h).1⟩

/-- only `x` denotes the cell `c`, which holds `ts` -/
structure Sole (s : OStore) (x : String) (c : Nat) (ts : List PauliOp) : Prop where
  here : ∃ v, s.op x = some (c, v)
  val : s.val c = ts
  lt : c < s.cells
  op : ∀ y d v, y ≠ x → s.op y = some (d, v) → d ≠ c
  bat : ∀ X cs, s.bat X = some cs → c ∉ cs

theorem sole_step {s s' : OStore} {x : String} {c : Nat} {ts : List PauliOp} {cmd : OCmd} (h : Sole s x c ts) (he : OEffect s cmd s')
    (hr : ¬ cmd.rebinds x) (ht : ¬ cmd.touches x) : Sole s' x c ts := by
  cases he with
  | fresh _ y ts' hy =>
    have hne : x ≠ y := fun e => hr (e ▸ hy)
    refine ⟨?_, ?_, Nat.lt_succ_of_lt h.lt, ?_, h.bat⟩
    · simp only [OStore.fresh, Function.update_of_ne hne]; exact h.here
    · simp only [OStore.fresh, Function.update_of_ne (Nat.ne_of_lt h.lt)]; exact h.val
    · intro z d v hz hd
      by_cases e : z = y
      · subst e
        simp only [OStore.fresh, Function.update_self] at hd
        cases hd
        exact (Nat.ne_of_lt h.lt).symm
      · simp only [OStore.fresh, Function.update_of_ne e] at hd
        exact h.op z d v hz hd
  | batch _ X ls hX =>
    have := h.lt
    refine ⟨h.here, ?_, ?_, h.op, ?_⟩
    · rw [freshBatch_old s X ls h.lt]; exact h.val
    · simp only [OStore.freshBatch]; omega
    · intro Y cs hY
      by_cases e : Y = X
      · subst e
        simp only [OStore.freshBatch, Function.update_self, Option.some.injEq] at hY
        subst hY
        intro hc
        obtain ⟨b, -, rfl⟩ := List.mem_map.1 hc
        omega
      · simp only [OStore.freshBatch, Function.update_of_ne e] at hY
        exact h.bat Y cs hY
  | set _ y d v ts' hy hd =>
    have hne : y ≠ x := fun e => ht (e ▸ hy)
    have hdc : c ≠ d := fun e => h.op y d v hne hd e.symm
    exact ⟨h.here, by simp only [OStore.set, Function.update_of_ne hdc]; exact h.val, h.lt, h.op, h.bat⟩
  | share y z d v hz =>
    have hzx : z ≠ x := fun e => ht (by simpa [OCmd.touches] using e)
    have hyx : x ≠ y := fun e => hr (by simpa [OCmd.rebinds] using e.symm)
    refine ⟨?_, h.val, h.lt, ?_, h.bat⟩
    · simp only [Function.update_of_ne hyx]; exact h.here
    · intro u d' v' hu hd
      by_cases e : u = y
      · subst e
        simp only [Function.update_self] at hd
        cases hd
        exact h.op z d v hzx hz
      · simp only [Function.update_of_ne e] at hd
        exact h.op u d' v' hu hd
  | shareB X Y cs hY =>
    refine ⟨h.here, h.val, h.lt, h.op, ?_⟩
    intro Z ds hZ
    by_cases e : Z = X
    · subst e
      simp only [Function.update_self] at hZ
      cases hZ
      exact h.bat Y cs hY
    · simp only [Function.update_of_ne e] at hZ
      exact h.bat Z ds hZ
  | view y X i cs hX hi =>
    have hyx : x ≠ y := fun e => hr (by simpa [OCmd.rebinds] using e.symm)
    refine ⟨?_, h.val, h.lt, ?_, h.bat⟩
    · simp only [Function.update_of_ne hyx]; exact h.here
    · intro u d' v' hu hd
      by_cases e : u = y
      · subst e
        simp only [Function.update_self] at hd
        cases hd
        intro e'
        exact h.bat X cs hX (e' ▸ List.getElem_mem hi)
      · simp only [Function.update_of_ne e] at hd
        exact h.op u d' v' hu hd

/-- the store at the end of a program -/
def OFinal.store : OFinal → Option OStore
  | .finished s | .stopped s => some s
  | .unspecified => none

/-- an invariant of the steps of a program holds at its end -/
theorem orun_invariant {norm : List PauliOp → List PauliOp} (I : OStore → Prop) :
    ∀ {Q : List OCmd} {s t : OStore}, (∀ c ∈ Q, ∀ s s', I s → OEffect s c s' → I s') → I s → OFinal.store (s.run norm Q) = some t → I t
  | [], s, t, _, h, ht => by cases ht; exact h
  | c :: Q, s, t, hQ, h, ht => by
    unfold OStore.run at ht
    cases hc : s.step norm c with
    | unspecified => rw [hc] at ht; cases ht
    | refused => rw [hc] at ht; cases ht; exact h
    | done s' =>
      rw [hc] at ht
      exact orun_invariant I (fun d hd => hQ d (List.mem_cons_of_mem c hd)) (hQ c (by simp) s s' h (effect_of hc)) ht

theorem orun_append {norm : List PauliOp → List PauliOp} : ∀ (P Q : List OCmd) (s : OStore),
    s.run norm (P ++ Q) = match s.run norm P with | .finished t => t.run norm Q | r => r
  | [], Q, s => rfl
  | c :: P, Q, s => by
    rw [List.cons_append, OStore.run, OStore.run]
    cases s.step norm c with
    | unspecified => rfl
    | refused => rfl
    | done t => exact orun_append P Q t

/-- what is known about the end of `Q` after `P` and `c` -/
theorem after_ops {P Q : List OCmd} {c : OCmd} (hs : OStore.empty.run codeNorm (P ++ c :: Q) ≠ .unspecified)
    {w w1 w2 : OWorld} {f : Option Fault} (h0 : OWorld.empty.Run P w none) (h1 : w.Exec c w1 none) (h2 : w1.Run Q w2 f) :
    ∃ s s1 s2, OShows w s ∧ CellsBounded s ∧ s.step codeNorm c = .done s1 ∧ OShows w1 s1 ∧ OFinal.store (s1.run codeNorm Q) = some s2 ∧
      OShows w2 s2 := by
  rw [orun_append] at hs
  have hP := run_ok P opic_empty
  cases hr : OStore.empty.run codeNorm P with
  | unspecified => rw [hr] at hs; exact absurd rfl hs
  | stopped s =>
    rw [hr] at hP
    obtain ⟨_, _, _, _, hP⟩ := hP
    exact absurd ((hP _ _).1 h0).2 (by simp)
  | finished s =>
    rw [hr] at hP hs
    obtain ⟨w0, ρ, R, hP⟩ := hP
    obtain ⟨rfl, -⟩ := (hP _ _).1 h0
    have hc := exec_step R c
    dsimp only at hs
    unfold OStore.run at hs
    cases hst : s.step codeNorm c with
    | unspecified => rw [hst] at hs; exact absurd rfl hs
    | refused =>
      rw [hst] at hc
      obtain ⟨msg, hc⟩ := hc
      exact absurd ((hc _ _).1 h1).2 (by simp)
    | done s1 =>
      rw [hst] at hc hs
      obtain ⟨w1', ρ1, R1, hc⟩ := hc
      obtain ⟨rfl, -⟩ := (hc _ _).1 h1
      have hQ := run_ok Q R1
      dsimp only at hs
      cases hq : s1.run codeNorm Q with
      | unspecified => exact absurd hq hs
      | finished s2 =>
        rw [hq] at hQ
        obtain ⟨w2', ρ2, R2, hQ⟩ := hQ
        obtain ⟨rfl, -⟩ := (hQ _ _).1 h2
        exact ⟨s, s1, s2, oshows_of R, bounded_of R, hst, oshows_of R1, by rw [hq]; rfl, oshows_of R2⟩
      | stopped s2 =>
        rw [hq] at hQ
        obtain ⟨w2', ρ2, msg, R2, hQ⟩ := hQ
        obtain ⟨rfl, -⟩ := (hQ _ _).1 h2
        exact ⟨s, s1, s2, oshows_of R, bounded_of R, hst, oshows_of R1, by rw [hq]; rfl, oshows_of R2⟩

/-- **Results are independent.**  After `x` has been constructed, copied, optimised, computed by an operator of arithmetic or read from a
batch, no command that does not name `x` as the object to change, to assign or to share changes its terms. -/
theorem C85_independent {P Q : List OCmd} {x : String} {c : OCmd} (hc : c.makes x) (hQ : ∀ d ∈ Q, ¬ d.rebinds x ∧ ¬ d.touches x)
    (hs : OStore.empty.run codeNorm (P ++ c :: Q) ≠ .unspecified) {w w1 w2 : OWorld} {f : Option Fault}
    (h0 : OWorld.empty.Run P w none) (h1 : w.Exec c w1 none) (h2 : w1.Run Q w2 f) :
    ∃ o o', w1.op x = some o ∧ w2.op x = some o' ∧ o'.terms w2.heap = o.terms w1.heap := by
  obtain ⟨s, s1, s2, S, B, hst, S1, hq, S2⟩ := after_ops hs h0 h1 h2
  obtain ⟨ts, rfl⟩ : ∃ ts, s1 = s.fresh x ts := by
    have he := effect_of hst
    cases he with
    | fresh _ y ts hy =>
      refine ⟨ts, ?_⟩
      have : y = x := by
        cases c <;> first | exact hc.elim | exact hy.symm.trans hc
      rw [this]
    | batch _ X ls hX => cases c <;> first | exact hc.elim | exact hX.elim
    | set _ y d v ts hy hd => cases c <;> first | exact hc.elim | exact hy.elim
    | share => exact hc.elim
    | shareB => exact hc.elim
    | view => exact hc.elim
  have hsole : Sole (s.fresh x ts) x s.cells ts := by
    refine ⟨⟨false, by simp [OStore.fresh]⟩, by simp [OStore.fresh], Nat.lt_succ_self _, ?_, ?_⟩
    · intro y d v hy hd
      simp only [OStore.fresh, Function.update_of_ne hy] at hd
      exact (Nat.ne_of_lt (B.op y d v hd))
    · intro X cs hX hc
      exact absurd (B.bat X cs hX _ hc) (Nat.lt_irrefl _)
  have hend := orun_invariant (fun t => Sole t x s.cells ts) (fun d hd a b ha he => sole_step ha he (hQ d hd).1 (hQ d hd).2) hsole hq
  obtain ⟨v, hv⟩ := hsole.here
  obtain ⟨v', hv'⟩ := hend.here
  obtain ⟨o, ho, ht, -⟩ := S1.op x _ _ hv
  obtain ⟨o', ho', ht', -⟩ := S2.op x _ _ hv'
  exact ⟨o, o', ho, ho', by rw [ht, ht', hsole.val, hend.val]⟩

/-- the hypotheses hold for `y = x.copy(); x *= 2; x = y.get_dagger()` after `Operator x({p})` -/
example (p : PauliOp) : ∃ w w1 w2 f, OWorld.empty.Run [.new "x" [p]] w none ∧ w.Exec (.copy "y" "x") w1 none ∧
    w1.Run [.scaleAssign "x" 2, .dagger "x" "y"] w2 f ∧ OCmd.makes "y" (.copy "y" "x") ∧
    (∀ d ∈ [OCmd.scaleAssign "x" 2, OCmd.dagger "x" "y"], ¬ d.rebinds "y" ∧ ¬ d.touches "y") ∧
    OStore.empty.run codeNorm ([.new "x" [p]] ++ .copy "y" "x" :: [.scaleAssign "x" 2, .dagger "x" "y"]) ≠ .unspecified :=
  ⟨_, _, _, _, .cons _ _ _ _ _ _ ⟨rfl, rfl⟩ (.nil _), ⟨rfl, rfl⟩, .cons _ _ _ _ _ _ ⟨rfl, rfl⟩ (.cons _ _ _ _ _ _ ⟨rfl, rfl⟩ (.nil _)), rfl,
    by simp [OCmd.rebinds, OCmd.touches], by intro h; cases h⟩

theorem coupled_step {s s' : OStore} {x X : String} {i : Nat} {cmd : OCmd} (he : OEffect s cmd s') (hr : ¬ cmd.rebinds x)
    (hR : ¬ cmd.rebindsB X) (h : ∃ cs, s.bat X = some cs ∧ ∃ hi : i < cs.length, s.op x = some (cs[i], true)) :
    ∃ cs, s'.bat X = some cs ∧ ∃ hi : i < cs.length, s'.op x = some (cs[i], true) := by
  obtain ⟨cs, hX, hi, hx⟩ := h
  refine ⟨cs, ?_, hi, ?_⟩
  · cases he with
    | fresh _ y ts hy => exact hX
    | batch _ Y ls hY => simp only [OStore.freshBatch]; rw [Function.update_of_ne (fun e : X = Y => hR (e ▸ hY))]; exact hX
    | set _ y d v ts hy hd => exact hX
    | share y z d v hz => exact hX
    | shareB Y Z ds hZ => simp only; rw [Function.update_of_ne (fun e : X = Y => hR (by simpa [OCmd.rebindsB] using e.symm))]; exact hX
    | view y Y j ds hY hj => exact hX
  · cases he with
    | fresh _ y ts hy => simp only [OStore.fresh]; rw [Function.update_of_ne (fun e : x = y => hr (e ▸ hy))]; exact hx
    | batch _ Y ls hY => exact hx
    | set _ y d v ts hy hd => exact hx
    | share y z d v hz => simp only; rw [Function.update_of_ne (fun e : x = y => hr (by simpa [OCmd.rebinds] using e.symm))]; exact hx
    | shareB Y Z ds hZ => exact hx
    | view y Y j ds hY hj => simp only; rw [Function.update_of_ne (fun e : x = y => hr (by simpa [OCmd.rebinds] using e.symm))]; exact hx

/-- **Views stay coupled.**  After `x = X.view_operator_at(i)` and whatever follows, as long as neither `x` nor `X` is assigned (or `X`
loaded), `x` has the terms of slot `i` of `X` — also when terms are changed in place through `x` or through any other object. -/
theorem C85_view {P Q : List OCmd} {x X : String} {i : Nat} (hQ : ∀ d ∈ Q, ¬ d.rebinds x ∧ ¬ d.rebindsB X)
    (hs : OStore.empty.run codeNorm (P ++ .view x X i :: Q) ≠ .unspecified) {w w1 w2 : OWorld} {f : Option Fault}
    (h0 : OWorld.empty.Run P w none) (h1 : w.Exec (.view x X i) w1 none) (h2 : w1.Run Q w2 f) :
    ∃ o H t, w2.op x = some o ∧ w2.bat X = some H ∧ (H.value w2.heap).getOperatorAt i = .ok t ∧ t.terms = o.terms w2.heap ∧
      o.isView = true := by
  obtain ⟨s, s1, s2, S, B, hst, S1, hq, S2⟩ := after_ops hs h0 h1 h2
  have hcpl : ∃ cs, s1.bat X = some cs ∧ ∃ hi : i < cs.length, s1.op x = some (cs[i], true) := by
    obtain ⟨cs, hY, h⟩ := withBat_done hst
    by_cases hi : i < cs.length
    · rw [dif_pos hi] at h
      cases h
      exact ⟨cs, hY, hi, by simp⟩
    · rw [dif_neg hi] at h; cases h
  have hend := orun_invariant (fun t => ∃ cs, t.bat X = some cs ∧ ∃ hi : i < cs.length, t.op x = some (cs[i], true))
    (fun d hd a b ha he => coupled_step he (hQ d hd).1 (hQ d hd).2 ha) hcpl hq
  obtain ⟨cs, hX, hi, hx⟩ := hend
  obtain ⟨o, ho, ht, hv⟩ := S2.op x _ _ hx
  obtain ⟨H, hH, hget⟩ := S2.bat X _ hX
  refine ⟨o, H, ⟨s2.val cs[i], true, false⟩, ho, hH, ?_, ht.symm, hv⟩
  have := getOperators_at hget hi
  simpa using this

/-- the hypotheses hold for `x = X.view_operator_at(0); x *= 2; y = x; y.load({q})` -/
example (p q : PauliOp) : ∃ w w1 w2 f, OWorld.empty.Run [.newB "X" [[p], [p, q]]] w none ∧ w.Exec (.view "x" "X" 0) w1 none ∧
    w1.Run [.scaleAssign "x" 2, .share "y" "x", .load "y" [q]] w2 f ∧
    (∀ d ∈ [OCmd.scaleAssign "x" 2, .share "y" "x", .load "y" [q]], ¬ d.rebinds "x" ∧ ¬ d.rebindsB "X") ∧
    OStore.empty.run codeNorm ([.newB "X" [[p], [p, q]]] ++ .view "x" "X" 0 :: [.scaleAssign "x" 2, .share "y" "x", .load "y" [q]]) ≠
      .unspecified :=
  ⟨_, _, _, _, .cons _ _ _ _ _ _ ⟨rfl, rfl⟩ (.nil _), ⟨rfl, rfl⟩, .cons _ _ _ _ _ _ ⟨rfl, rfl⟩ (.cons _ _ _ _ _ _ ⟨rfl, rfl⟩
    (.cons _ _ _ _ _ _ ⟨rfl, rfl⟩ (.nil _))), by simp [OCmd.rebinds, OCmd.rebindsB], by intro h; cases h⟩

/-! ## disagreements -/

/-- **`load` of a shared batch** breaks the other object: after `Y = X; X.load(…)` with other sizes, reading slot 1 of `Y` goes outside the
array of `Y` (`_row_ptr` is overwritten in place, `_ops` is replaced; /repo/src/operator/operator_batched.cpp:34-37). -/
theorem C85_load_counterexample (p q : PauliOp) :
    ∃ w H, OWorld.empty.Run [.newB "X" [[p], [q]], .shareB "Y" "X", .loadB "X" [[p, p], [q]]] w none ∧ w.bat "Y" = some H ∧
      (H.value w.heap).getOperatorAt 1 = .error (.ub "subview out of range") := by
  refine ⟨_, _, .cons _ _ _ _ _ _ ⟨rfl, rfl⟩ (.cons _ _ _ _ _ _ ⟨rfl, rfl⟩ (.cons _ _ _ _ _ _ ⟨rfl, rfl⟩ (.nil _))), rfl, ?_⟩
  rfl

/-- **`is_hermitian` of a shared operator** goes wrong: after `y = x; y *= i` the terms of `x` have imaginary coefficients, but
`x.is_hermitian()` still says true (the flag belongs to the object, the terms do not; /repo/src/operator/operator.cpp:557-566). -/
theorem C85_hermitian_counterexample :
    ∃ w o, OWorld.empty.Run [.new "x" [⟨1, 0, 1⟩], .share "y" "x", .scaleAssign "y" Complex.I] w none ∧ w.op "x" = some o ∧
      o.terms w.heap = [⟨Complex.I, 0, 1⟩] ∧ o.hermitian = true := by
  refine ⟨_, _, .cons _ _ _ _ _ _ ⟨rfl, rfl⟩ (.cons _ _ _ _ _ _ ⟨rfl, rfl⟩ (.cons _ _ _ _ _ _ ⟨rfl, rfl⟩ (.nil _))), rfl, ?_, ?_⟩
  · simp [HOp.terms, OWorld.update, OWorld.newOp, OHeap.store, OHeap.alloc, OWorld.empty, Op.scaleAssign, HOp.value, Op.ofTerms,
      PauliOp.scale]
  · simp [OWorld.newOp, Op.ofTerms, realCoefs]

end Verif.Props
