import Verif.Proofs.SharingRefine

/-! # What commands leave alone -/

namespace Verif.Proofs
open Verif Verif.Model Verif.Spec

/-- only the objects in `V` and `W` denote cells in `C` -/
structure Own (s : Store) (V W : String → Prop) (C : Nat → Prop) : Prop where
  lt : ∀ c, C c → c < s.cells
  vec : ∀ y, ¬ V y → ∀ c, s.vec y = some c → ¬ C c
  bat : ∀ Y, ¬ W Y → ∀ n cs, s.bat Y = some (n, cs) → ∀ c ∈ cs, ¬ C c

/-- … still, and these objects are unchanged -/
structure Kept (s s' : Store) (V W : String → Prop) (C : Nat → Prop) : Prop where
  own : Own s' V W C
  val : ∀ c, C c → s'.val c = s.val c
  qubits : ∀ c, C c → s'.qubits c = s.qubits c
  vec : ∀ x, V x → s'.vec x = s.vec x
  bat : ∀ X, W X → s'.bat X = s.bat X

variable {s : Store} {V W : String → Prop} {C : Nat → Prop}

theorem Own.set (h : Own s V W C) {d : Nat} (hd : ¬ C d) (v : BitVec 64 → ℂ) : Kept s (s.set d v) V W C :=
  ⟨⟨h.lt, h.vec, h.bat⟩, fun c hc => Function.update_of_ne (show c ≠ d from fun e => hd (e ▸ hc)) .., fun _ _ => rfl, fun _ _ => rfl, fun _ _ => rfl⟩

theorem Own.setMany (h : Own s V W C) {cs : List Nat} (hd : ∀ c ∈ cs, ¬ C c) (F : Nat → (BitVec 64 → ℂ) → BitVec 64 → ℂ) :
    Kept s (s.setMany cs F) V W C :=
  ⟨⟨h.lt, h.vec, h.bat⟩, fun c hc => if_neg fun hm => hd c hm hc, fun _ _ => rfl, fun _ _ => rfl, fun _ _ => rfl⟩

theorem Own.fresh (h : Own s V W C) {y : String} (hy : ¬ V y) (n : Nat) (v : BitVec 64 → ℂ) : Kept s (s.fresh y n v) V W C := by
  have hne : ∀ c, C c → c ≠ s.cells := fun c hc => Nat.ne_of_lt (h.lt c hc)
  refine ⟨⟨?_, ?_, h.bat⟩, fun c hc => Function.update_of_ne (hne c hc) .., fun c hc => Function.update_of_ne (hne c hc) .., ?_, fun _ _ => rfl⟩
  · intro c hc; have := h.lt c hc; simp only [Store.fresh]; omega
  · intro z hz c hzc
    simp only [Store.fresh] at hzc
    by_cases e : z = y
    · subst e
      rw [Function.update_self] at hzc
      cases hzc
      exact fun hc => hne _ hc rfl
    · rw [Function.update_of_ne e] at hzc; exact h.vec z hz c hzc
  · intro x hx
    exact Function.update_of_ne (show x ≠ y from fun e => hy (e ▸ hx)) ..

theorem Own.freshBatch (h : Own s V W C) {X : String} (hX : ¬ W X) (B n : Nat) (v : Nat → BitVec 64 → ℂ) :
    Kept s (s.freshBatch X B n v) V W C := by
  have hlt : ∀ c, C c → ¬ s.cells ≤ c := fun c hc => Nat.not_le.mpr (h.lt c hc)
  refine ⟨⟨?_, h.vec, ?_⟩, fun c hc => if_neg (hlt c hc), fun c hc => if_neg (hlt c hc), fun _ _ => rfl, ?_⟩
  · intro c hc; have := h.lt c hc; simp only [Store.freshBatch]; omega
  · intro Y hY m cs hcs
    simp only [Store.freshBatch] at hcs
    by_cases e : Y = X
    · subst e
      rw [Function.update_self] at hcs
      cases hcs
      intro c hm hc
      simp only [List.mem_map, List.mem_range] at hm
      obtain ⟨b, _, rfl⟩ := hm
      exact hlt _ hc (by omega)
    · rw [Function.update_of_ne e] at hcs; exact h.bat Y hY m cs hcs
  · intro x hx
    exact Function.update_of_ne (show x ≠ X from fun e => hX (e ▸ hx)) ..

theorem Own.rebind (h : Own s V W C) {y : String} (hy : ¬ V y) {d : Nat} (hd : ¬ C d) :
    Kept s { s with vec := Function.update s.vec y (some d) } V W C := by
  refine ⟨⟨h.lt, ?_, h.bat⟩, fun _ _ => rfl, fun _ _ => rfl, ?_, fun _ _ => rfl⟩
  · intro z hz c hzc
    simp only at hzc
    by_cases e : z = y
    · subst e; rw [Function.update_self] at hzc; cases hzc; exact hd
    · rw [Function.update_of_ne e] at hzc; exact h.vec z hz c hzc
  · intro x hx
    exact Function.update_of_ne (show x ≠ y from fun e => hy (e ▸ hx)) ..

theorem Own.rebindBat (h : Own s V W C) {Y : String} (hY : ¬ W Y) {p : Nat × List Nat} (hp : ∀ c ∈ p.2, ¬ C c) :
    Kept s { s with bat := Function.update s.bat Y (some p) } V W C := by
  refine ⟨⟨h.lt, h.vec, ?_⟩, fun _ _ => rfl, fun _ _ => rfl, fun _ _ => rfl, ?_⟩
  · intro Z hZ n cs hcs
    simp only at hcs
    by_cases e : Z = Y
    · subst e; rw [Function.update_self] at hcs; cases hcs; exact hp
    · rw [Function.update_of_ne e] at hcs; exact h.bat Z hZ n cs hcs
  · intro x hx
    exact Function.update_of_ne (show x ≠ Y from fun e => hY (e ▸ hx)) ..

/-- a command that names no object in `V`, `W` neither changes their amplitudes nor gives them to somebody else -/
theorem Own.step {K : Kit} {s' : Store} (h : Own s V W C) {cmd : Cmd} (hx : ∀ x ∈ cmd.vecs, ¬ V x) (hX : ∀ X ∈ cmd.bats, ¬ W X)
    (hs : s.step K cmd = .done s') : Kept s s' V W C := by
  cases cmd with
  | newVec y n =>
    simp only [Cmd.vecs, Cmd.bats, List.forall_mem_cons, List.not_mem_nil, false_implies, implies_true, and_true] at hx hX
    simp only [Store.step] at hs
    split at hs
    · cases hs; exact h.fresh hx _ _
    · cases hs
  | shareVec y z =>
    simp only [Cmd.vecs, Cmd.bats, List.forall_mem_cons, List.not_mem_nil, false_implies, implies_true, and_true] at hx hX
    simp only [Store.step] at hs
    split at hs
    · next d hd =>
      cases hs; exact h.rebind hx.1 (h.vec z hx.2 d hd)
    · cases hs
  | copyVec y z =>
    simp only [Cmd.vecs, Cmd.bats, List.forall_mem_cons, List.not_mem_nil, false_implies, implies_true, and_true] at hx hX
    simp only [Store.step] at hs
    split at hs
    · cases hs; exact h.fresh hx.1 _ _
    · cases hs
  | loadVec y z =>
    simp only [Cmd.vecs, Cmd.bats, List.forall_mem_cons, List.not_mem_nil, false_implies, implies_true, and_true] at hx hX
    simp only [Store.step] at hs
    split at hs
    · next d _ hd _ =>
      split at hs
      · cases hs; exact h.set (h.vec y hx.1 d hd) _
      · cases hs
    · cases hs
  | loadList y amps =>
    simp only [Cmd.vecs, Cmd.bats, List.forall_mem_cons, List.not_mem_nil, false_implies, implies_true, and_true] at hx hX
    simp only [Store.step] at hs
    split at hs
    · next d hd =>
      split at hs
      · cases hs; exact h.set (h.vec y hx d hd) _
      · cases hs
    · cases hs
  | setAmp y i a =>
    simp only [Cmd.vecs, Cmd.bats, List.forall_mem_cons, List.not_mem_nil, false_implies, implies_true, and_true] at hx hX
    simp only [Store.step] at hs
    split at hs
    · next d hd =>
      split at hs
      · cases hs; exact h.set (h.vec y hx d hd) _
      · cases hs
    · cases hs
  | setBasis y k =>
    simp only [Cmd.vecs, Cmd.bats, List.forall_mem_cons, List.not_mem_nil, false_implies, implies_true, and_true] at hx hX
    simp only [Store.step] at hs
    split at hs
    · next d hd =>
      split at hs
      · cases hs; exact h.set (h.vec y hx d hd) _
      · cases hs
    · cases hs
  | setZeroNorm y =>
    simp only [Cmd.vecs, Cmd.bats, List.forall_mem_cons, List.not_mem_nil, false_implies, implies_true, and_true] at hx hX
    simp only [Store.step] at hs
    split at hs
    · next d hd =>
      cases hs; exact h.set (h.vec y hx d hd) _
    · cases hs
  | mulCoef y a =>
    simp only [Cmd.vecs, Cmd.bats, List.forall_mem_cons, List.not_mem_nil, false_implies, implies_true, and_true] at hx hX
    simp only [Store.step] at hs
    split at hs
    · next d hd =>
      cases hs; exact h.set (h.vec y hx d hd) _
    · cases hs
  | addCoef y a z =>
    simp only [Cmd.vecs, Cmd.bats, List.forall_mem_cons, List.not_mem_nil, false_implies, implies_true, and_true] at hx hX
    simp only [Store.step] at hs
    split at hs
    · next d _ hd _ =>
      split at hs
      · cases hs; exact h.set (h.vec y hx.1 d hd) _
      · cases hs
    · cases hs
  | gate y g =>
    simp only [Cmd.vecs, Cmd.bats, List.forall_mem_cons, List.not_mem_nil, false_implies, implies_true, and_true] at hx hX
    simp only [Store.step] at hs
    split at hs
    · next d hd =>
      split at hs
      · split at hs
        · cases hs; exact h.fresh hx _ _
        · cases hs; exact h.set (h.vec y hx d hd) _
      · cases hs
    · cases hs
  | newBatch X B n =>
    simp only [Cmd.vecs, Cmd.bats, List.forall_mem_cons, List.not_mem_nil, false_implies, implies_true, and_true] at hx hX
    simp only [Store.step] at hs
    split at hs
    · cases hs; exact h.freshBatch hX _ _ _
    · cases hs
  | shareBatch X Y =>
    simp only [Cmd.vecs, Cmd.bats, List.forall_mem_cons, List.not_mem_nil, false_implies, implies_true, and_true] at hx hX
    simp only [Store.step] at hs
    split at hs
    · next p hp =>
      cases hs; exact h.rebindBat hX.1 (h.bat Y hX.2 p.1 p.2 hp)
    · cases hs
  | copyBatch X Y =>
    simp only [Cmd.vecs, Cmd.bats, List.forall_mem_cons, List.not_mem_nil, false_implies, implies_true, and_true] at hx hX
    simp only [Store.step] at hs
    split at hs
    · cases hs; exact h.freshBatch hX.1 _ _ _
    · cases hs
  | loadBatch X Y =>
    simp only [Cmd.vecs, Cmd.bats, List.forall_mem_cons, List.not_mem_nil, false_implies, implies_true, and_true] at hx hX
    simp only [Store.step] at hs
    split at hs
    · next n cs m ds hcs _ =>
      split at hs
      · cases hs; exact h.setMany (h.bat X hX.1 n cs hcs) _
      · cases hs
    · cases hs
  | loadLists X amps =>
    simp only [Cmd.vecs, Cmd.bats, List.forall_mem_cons, List.not_mem_nil, false_implies, implies_true, and_true] at hx hX
    simp only [Store.step] at hs
    split at hs
    · next n cs hcs =>
      split at hs
      · cases hs; exact h.setMany (h.bat X hX n cs hcs) _
      · cases hs
    · cases hs
  | setBasisBatch X k =>
    simp only [Cmd.vecs, Cmd.bats, List.forall_mem_cons, List.not_mem_nil, false_implies, implies_true, and_true] at hx hX
    simp only [Store.step] at hs
    split at hs
    · next n cs hcs =>
      split at hs
      · cases hs; exact h.setMany (h.bat X hX n cs hcs) _
      · cases hs
    · cases hs
  | setZeroNormBatch X =>
    simp only [Cmd.vecs, Cmd.bats, List.forall_mem_cons, List.not_mem_nil, false_implies, implies_true, and_true] at hx hX
    simp only [Store.step] at hs
    split at hs
    · next n cs hcs =>
      cases hs; exact h.setMany (h.bat X hX n cs hcs) _
    · cases hs
  | mulBatch X a =>
    simp only [Cmd.vecs, Cmd.bats, List.forall_mem_cons, List.not_mem_nil, false_implies, implies_true, and_true] at hx hX
    simp only [Store.step] at hs
    split at hs
    · next n cs hcs =>
      cases hs; exact h.setMany (h.bat X hX n cs hcs) _
    · cases hs
  | addBatch X a Y =>
    simp only [Cmd.vecs, Cmd.bats, List.forall_mem_cons, List.not_mem_nil, false_implies, implies_true, and_true] at hx hX
    simp only [Store.step] at hs
    split at hs
    · next n cs m ds hcs _ =>
      split at hs
      · cases hs; exact h.setMany (h.bat X hX.1 n cs hcs) _
      · cases hs
    · cases hs
  | gateBatch X g =>
    simp only [Cmd.vecs, Cmd.bats, List.forall_mem_cons, List.not_mem_nil, false_implies, implies_true, and_true] at hx hX
    simp only [Store.step] at hs
    split at hs
    · next n cs hcs =>
      split at hs
      · split at hs
        · cases hs; exact h.freshBatch hX _ _ _
        · cases hs; exact h.setMany (h.bat X hX n cs hcs) _
      · cases hs
    · cases hs
  | setAll X y =>
    simp only [Cmd.vecs, Cmd.bats, List.forall_mem_cons, List.not_mem_nil, false_implies, implies_true, and_true] at hx hX
    simp only [Store.step] at hs
    split at hs
    · next n cs d hcs hd =>
      split at hs
      · split at hs
        · cases hs
        · cases hs; exact h.setMany (h.bat X hX n cs hcs) _
      · cases hs
    · cases hs
  | setAt X b y =>
    simp only [Cmd.vecs, Cmd.bats, List.forall_mem_cons, List.not_mem_nil, false_implies, implies_true, and_true] at hx hX
    simp only [Store.step] at hs
    split at hs
    · next n cs d hcs hd =>
      split at hs
      · split at hs
        · cases hs; exact h.set (h.bat X hX n cs hcs _ (List.getElem_mem _)) _
        · cases hs
      · cases hs
    · cases hs
  | view y X b =>
    simp only [Cmd.vecs, Cmd.bats, List.forall_mem_cons, List.not_mem_nil, false_implies, implies_true, and_true] at hx hX
    simp only [Store.step] at hs
    split at hs
    · next n cs hcs =>
      split at hs
      · cases hs; exact h.rebind hx (h.bat X hX n cs hcs _ (List.getElem_mem _))
      · cases hs
    · cases hs
  | getAt y X b =>
    simp only [Cmd.vecs, Cmd.bats, List.forall_mem_cons, List.not_mem_nil, false_implies, implies_true, and_true] at hx hX
    simp only [Store.step] at hs
    split at hs
    · split at hs
      · cases hs; exact h.fresh hx _ _
      · cases hs
    · cases hs
  | reduced y X =>
    simp only [Cmd.vecs, Cmd.bats, List.forall_mem_cons, List.not_mem_nil, false_implies, implies_true, and_true] at hx hX
    simp only [Store.step] at hs
    split at hs
    · cases hs; exact h.fresh hx _ _
    · cases hs

/-- the cell that `x` denotes only changes when `x` is assigned or a gate rebinds -/
theorem step_vec {K : Kit} {s s' : Store} {x : String} {cmd : Cmd} (hx : x ∉ cmd.assignsVec) (hK : ∀ d ∈ cmd.gates, ¬ K.rebinds d)
    (hs : s.step K cmd = .done s') : s'.vec x = s.vec x := by
  have upd : ∀ {y : String} {d : Option Nat}, x ≠ y → Function.update s.vec y d x = s.vec x := fun e => Function.update_of_ne e ..
  cases cmd <;> simp only [Store.step] at hs <;> (try split at hs) <;> (try split at hs) <;> (try split at hs) <;>
    simp only [Outcome.done.injEq, reduceCtorEq] at hs <;> (try subst hs) <;>
    first
      | rfl
      | (simp only [Cmd.assignsVec, List.mem_singleton] at hx; exact upd hx)
      | (rename_i hr; exact absurd hr (hK _ (by simp [Cmd.gates])))

theorem step_bat {K : Kit} {s s' : Store} {X : String} {cmd : Cmd} (hx : X ∉ cmd.assignsBat) (hK : ∀ d ∈ cmd.gates, ¬ K.rebinds d)
    (hs : s.step K cmd = .done s') : s'.bat X = s.bat X := by
  have upd : ∀ {y : String} {d : Option (Nat × List Nat)}, X ≠ y → Function.update s.bat y d X = s.bat X := fun e => Function.update_of_ne e ..
  cases cmd <;> simp only [Store.step] at hs <;> (try split at hs) <;> (try split at hs) <;> (try split at hs) <;>
    simp only [Outcome.done.injEq, reduceCtorEq] at hs <;> (try subst hs) <;>
    first
      | rfl
      | (simp only [Cmd.assignsBat, List.mem_singleton] at hx; exact upd hx)
      | (rename_i hr; exact absurd hr (hK _ (by simp [Cmd.gates])))

/-! ## programs -/

/-- the kit of the code: matrix gates that swap buffers rebind -/
def codeKit : Kit := ⟨AcceptedGate, fun d => ¬ SmallMatrix d⟩

/-- the kit of the specification: no gate rebinds -/
def plainKit : Kit := ⟨AcceptedGate, fun _ => False⟩

theorem run_refines {L ms : Nat} {junk : Nat → Nat → ℂ} (hL : LanesOK L) : ∀ (cs : List Cmd) {w : World} {s : Store} {ρ : Nat → Addr} (_ : Pictures ms w s ρ),
    match s.run codeKit cs with
    | .finished s' => ∃ w0 ρ', Pictures ms w0 s' ρ' ∧ ∀ w' f, World.Run L ms junk w cs w' f ↔ w' = w0 ∧ f = none
    | .stopped s' => ∃ w0 ρ' msg, Pictures ms w0 s' ρ' ∧ ∀ w' f, World.Run L ms junk w cs w' f ↔ w' = w0 ∧ f = some (.throw msg)
    | .unspecified => True
  | [], w, s, ρ, R => by
    simp only [Store.run]
    refine ⟨w, ρ, R, fun w' f => ⟨?_, ?_⟩⟩
    · intro h; cases h; exact ⟨rfl, rfl⟩
    · rintro ⟨rfl, rfl⟩; exact .nil _
  | c :: cs, w, s, ρ, R => by
    simp only [Store.run]
    have h1 := step_refines (junk := junk) hL R c
    change match s.step codeKit c with
      | .done s' => Done ms (fun w' f => w.Exec L ms junk c w' f) s'
      | .refused => Refused w (fun w' f => w.Exec L ms junk c w' f)
      | .unspecified => True at h1
    cases hs : s.step codeKit c with
    | unspecified => trivial
    | refused =>
      rw [hs] at h1
      obtain ⟨msg, h1⟩ := h1
      refine ⟨w, ρ, msg, R, fun w' f => ⟨?_, ?_⟩⟩
      · intro h
        cases h with
        | cons _ w1 _ _ _ _ he _ => have := (h1 w1 none).1 he; simp at this
        | stop _ _ _ _ e he =>
          obtain ⟨h2, h3⟩ := (h1 _ _).1 he
          exact ⟨h2, h3⟩
      · rintro ⟨rfl, rfl⟩
        exact .stop _ _ _ _ _ ((h1 _ _).2 ⟨rfl, rfl⟩)
    | done s1 =>
      rw [hs] at h1
      obtain ⟨w1, ρ1, R1, h1⟩ := h1
      have ih := run_refines (L := L) (junk := junk) hL cs R1
      have key : ∀ w' f, World.Run L ms junk w (c :: cs) w' f ↔ World.Run L ms junk w1 cs w' f := by
        intro w' f
        constructor
        · intro h
          cases h with
          | cons _ w2 _ _ _ _ he hr =>
            obtain ⟨rfl, -⟩ := (h1 _ _).1 he
            exact hr
          | stop _ _ _ _ e he => have := ((h1 _ _).1 he).2; simp at this
        · intro h
          exact .cons _ _ _ _ _ _ ((h1 w1 none).2 ⟨rfl, rfl⟩) h
      simp only [key]
      exact ih

theorem rel_empty (ms : Nat) (ρ : Nat → Addr) : Pictures ms World.empty Store.empty ρ := by
  refine ⟨⟨?_, ?_, ?_, ?_, ?_⟩, fun _ => rfl, ?_, fun _ _ => rfl, ?_⟩
  · intro c hc; exact absurd hc (Nat.not_lt_zero _)
  · intro c d i j hc; exact absurd hc (Nat.not_lt_zero _)
  · intro c hc; exact absurd hc (Nat.not_lt_zero _)
  · intro c hc; exact absurd hc (Nat.not_lt_zero _)
  · intro c hc; exact absurd hc (Nat.not_lt_zero _)
  · intro x c hc; simp [Store.empty] at hc
  · intro X n cs hc; simp [Store.empty] at hc

theorem step_plain {s : Store} {c : Cmd} (hc : ∀ d ∈ c.gates, SmallMatrix d) : s.step codeKit c = s.step plainKit c := by
  cases c with
  | gate x d =>
    have hd : SmallMatrix d := hc d (by simp [Cmd.gates])
    simp [Store.step, codeKit, plainKit, hd]; rfl
  | gateBatch X d =>
    have hd : SmallMatrix d := hc d (by simp [Cmd.gates])
    simp [Store.step, codeKit, plainKit, hd]; rfl
  | _ => rfl

theorem run_plain : ∀ {cs : List Cmd} {s : Store}, (∀ c ∈ cs, ∀ d ∈ c.gates, SmallMatrix d) → s.run codeKit cs = s.run plainKit cs
  | [], _, _ => rfl
  | c :: cs, s, h => by
    simp only [Store.run, step_plain (h c List.mem_cons_self)]
    cases s.step plainKit c with
    | done s1 => exact run_plain fun c' hc' => h c' (List.mem_cons_of_mem _ hc')
    | refused => rfl
    | unspecified => rfl

theorem run_append (K : Kit) : ∀ (P Q : List Cmd) (s : Store), s.run K (P ++ Q) =
    match s.run K P with
    | .finished s' => s'.run K Q
    | .stopped s' => .stopped s'
    | .unspecified => .unspecified
  | [], Q, s => rfl
  | c :: P, Q, s => by
    simp only [List.cons_append, Store.run]
    cases s.step K c with
    | done s1 => exact run_append K P Q s1
    | refused => rfl
    | unspecified => rfl

/-- the state in which a program ends -/
def Final.store : Final → Option Store
  | .finished s => some s
  | .stopped s => some s
  | .unspecified => none

/-- something that every command preserves is preserved by the program -/
theorem run_invariant {K : Kit} (P : Store → Prop) : ∀ (cs : List Cmd) {s s' : Store}, (∀ c ∈ cs, ∀ t t', P t → t.step K c = .done t' → P t') →
    P s → Final.store (s.run K cs) = some s' → P s'
  | [], s, s', _, h, hr => by
    simp only [Store.run, Final.store, Option.some.injEq] at hr
    exact hr ▸ h
  | c :: cs, s, s', hstep, h, hr => by
    simp only [Store.run] at hr
    cases hs : s.step K c with
    | done s1 =>
      rw [hs] at hr
      exact run_invariant P cs (fun c' hc' => hstep c' (List.mem_cons_of_mem _ hc')) (hstep c List.mem_cons_self s s1 h hs) hr
    | refused =>
      rw [hs] at hr
      simp only [Final.store, Option.some.injEq] at hr
      exact hr ▸ h
    | unspecified => rw [hs] at hr; simp [Final.store] at hr

theorem Own.run {K : Kit} (h : Own s V W C) {cs : List Cmd} (hx : ∀ c ∈ cs, ∀ x ∈ c.vecs, ¬ V x) (hX : ∀ c ∈ cs, ∀ X ∈ c.bats, ¬ W X) {s' : Store}
    (hr : Final.store (s.run K cs) = some s') : Kept s s' V W C := by
  refine run_invariant (K := K) (fun t => Kept s t V W C) cs ?_ ⟨h, fun _ _ => rfl, fun _ _ => rfl, fun _ _ => rfl, fun _ _ => rfl⟩ hr
  intro c hc t t' ht hs
  have k := ht.own.step (hx c hc) (hX c hc) hs
  exact ⟨k.own, fun a ha => (k.val a ha).trans (ht.val a ha), fun a ha => (k.qubits a ha).trans (ht.qubits a ha),
    fun a ha => (k.vec a ha).trans (ht.vec a ha), fun a ha => (k.bat a ha).trans (ht.bat a ha)⟩

/-- objects denote cells that exist -/
structure WellNamed (s : Store) : Prop where
  vec : ∀ x c, s.vec x = some c → c < s.cells
  bat : ∀ X n cs, s.bat X = some (n, cs) → ∀ c ∈ cs, c < s.cells

theorem Pictures.wellNamed {ms : Nat} {w : World} {s : Store} {ρ : Nat → Addr} (R : Pictures ms w s ρ) : WellNamed s := by
  refine ⟨R.used, fun X n cs hX c hc => ?_⟩
  obtain ⟨v, -, hb⟩ := R.bat X n cs hX
  obtain ⟨b, hb', rfl⟩ := List.mem_iff_getElem.mp hc
  exact (hb.cell b hb').1

theorem Pictures.vec_list {ms : Nat} {w : World} {s : Store} {ρ : Nat → Addr} (R : Pictures ms w s ρ) {x : String} {c : Nat} (h : s.vec x = some c) :
    ∃ v, w.vec x = some v ∧ v.n = s.qubits c ∧ v.amplitudes w.heap = s.list c := by
  refine ⟨_, R.vec_some h, rfl, ?_⟩
  unfold SVec.amplitudes Store.list
  refine List.map_congr_left fun i hi => ?_
  exact R.heap.vals c (R.used x c h) i (List.mem_range.mp hi)

theorem Pictures.bat_list {ms : Nat} {w : World} {s : Store} {ρ : Nat → Addr} (R : Pictures ms w s ρ) {X : String} {n : Nat} {cs : List Nat}
    (h : s.bat X = some (n, cs)) : ∃ v, w.bat X = some v ∧ v.n = n ∧ v.amplitudes w.heap = cs.map s.list := by
  obtain ⟨v, hv, hb⟩ := R.bat X n cs h
  refine ⟨v, hv, hb.qubits, ?_⟩
  unfold SBat.amplitudes
  rw [hb.size, hb.dim]
  refine List.ext_getElem (by simp) fun b h1 h2 => ?_
  simp only [List.length_map, List.length_range] at h1
  have hc := hb.cell b h1
  simp only [List.getElem_map, List.getElem_range]
  unfold Store.list
  rw [hc.2.1]
  refine List.map_congr_left fun i hi => ?_
  exact hb.val R.heap h1 (List.mem_range.mp hi)

end Verif.Proofs
