import Verif.Proofs.SharingFrame
import Verif.Props.RandomGate

/-!
# C70: which objects share amplitudes

`World.Run` (Model/Handle) executes programs on memory: objects are handles, kernels read and write words of allocations under every
schedule.  `Store.run` (Spec/Sharing) has no addresses: objects denote cells.
-/

namespace Verif.Props
open Verif Verif.Model Verif.Spec Verif.Proofs

/-- all objects show the amplitudes that the specification says -/
structure Shows (w : World) (s : Store) : Prop where
  vec : ∀ x c, s.vec x = some c → ∃ v, w.vec x = some v ∧ v.n = s.qubits c ∧ v.amplitudes w.heap = s.list c
  bat : ∀ X n cs, s.bat X = some (n, cs) → ∃ v, w.bat X = some v ∧ v.n = n ∧ v.amplitudes w.heap = cs.map s.list
  novec : ∀ x, s.vec x = none → w.vec x = none
  nobat : ∀ X, s.bat X = none → w.bat X = none

theorem shows_of_rel {ms : Nat} {w : World} {s : Store} {ρ : Nat → Addr} (R : Pictures ms w s ρ) : Shows w s :=
  ⟨fun _ _ h => R.vec_list h, fun _ _ _ h => R.bat_list h, fun x h => by rw [R.vec, h]; rfl, R.nobat⟩

/-- the program is inside the scope of the specification -/
def Specified (P : List Cmd) : Prop := Store.empty.run codeKit P ≠ .unspecified

/-- **Programs on memory refine programs on cells.**  `minStride` is the alignment of rows, `junk` what new allocations contain,
`L` the number of SIMD lanes.  Every program has exactly one result: no schedule and no junk makes a difference, no address is out of
range and there is no race.  `codeKit` says that matrix gates which swap buffers rebind the object. -/
theorem C70_sharing_exact {L : Nat} (hL : LanesOK L) (minStride : Nat) (junk : Nat → Nat → ℂ) (P : List Cmd) :
    match Store.empty.run codeKit P with
    | .finished s => ∃ w0, Shows w0 s ∧ ∀ w f, World.Run L minStride junk World.empty P w f ↔ w = w0 ∧ f = none
    | .stopped s => ∃ w0 msg, Shows w0 s ∧ ∀ w f, World.Run L minStride junk World.empty P w f ↔ w = w0 ∧ f = some (.throw msg)
    | .unspecified => True := by
  have h := run_refines (L := L) (junk := junk) hL P (rel_empty minStride fun _ => (0, 0))
  cases hr : Store.empty.run codeKit P with
  | finished s =>
    rw [hr] at h
    obtain ⟨w0, ρ, R, h⟩ := h
    exact ⟨w0, shows_of_rel R, h⟩
  | stopped s =>
    rw [hr] at h
    obtain ⟨w0, ρ, msg, R, h⟩ := h
    exact ⟨w0, msg, shows_of_rel R, h⟩
  | unspecified => trivial

/-- The same with the specification proper (`plainKit`: updates never rebind), for programs all of whose matrix gates are dense ones on at
most two qubits.  Missing: sparse matrix gates and dense ones on three or more qubits, for which it is false
(`C70_sharing_counterexample`). -/
theorem C70_sharing_partial {L : Nat} (hL : LanesOK L) (minStride : Nat) (junk : Nat → Nat → ℂ) (P : List Cmd)
    (hP : ∀ c ∈ P, ∀ d ∈ c.gates, SmallMatrix d) :
    match Store.empty.run plainKit P with
    | .finished s => ∃ w0, Shows w0 s ∧ ∀ w f, World.Run L minStride junk World.empty P w f ↔ w = w0 ∧ f = none
    | .stopped s => ∃ w0 msg, Shows w0 s ∧ ∀ w f, World.Run L minStride junk World.empty P w f ↔ w = w0 ∧ f = some (.throw msg)
    | .unspecified => True := by
  have h := C70_sharing_exact hL minStride junk P
  rw [run_plain hP] at h
  exact h

/-! ## independence -/

/-- what is known about the end of `Q` after `P` and `c` -/
theorem after_program {L ms : Nat} {junk : Nat → Nat → ℂ} (hL : LanesOK L) {P Q : List Cmd} {c : Cmd} (hs : Specified (P ++ c :: Q))
    {w w1 w2 : World} {f : Option Fault} (h0 : World.Run L ms junk World.empty P w none) (h1 : w.Exec L ms junk c w1 none)
    (h2 : World.Run L ms junk w1 Q w2 f) :
    ∃ s s1 s2 ρ ρ1 ρ2, Pictures ms w s ρ ∧ s.step codeKit c = .done s1 ∧ Pictures ms w1 s1 ρ1 ∧ Final.store (s1.run codeKit Q) = some s2 ∧ Pictures ms w2 s2 ρ2 := by
  unfold Specified at hs
  rw [run_append] at hs
  have hP := run_refines (L := L) (junk := junk) hL P (rel_empty ms fun _ => (0, 0))
  cases hr : Store.empty.run codeKit P with
  | unspecified => rw [hr] at hs; exact absurd rfl hs
  | stopped s =>
    rw [hr] at hP
    obtain ⟨_, _, _, _, hP⟩ := hP
    have := ((hP _ _).1 h0).2
    simp at this
  | finished s =>
    rw [hr] at hP hs
    obtain ⟨w0, ρ, R, hP⟩ := hP
    obtain ⟨rfl, -⟩ := (hP _ _).1 h0
    simp only [Store.run] at hs
    have hc : match s.step codeKit c with
      | .done s' => Done ms (fun w' f => w.Exec L ms junk c w' f) s'
      | .refused => Refused w (fun w' f => w.Exec L ms junk c w' f)
      | .unspecified => True := step_refines (junk := junk) hL R c
    cases hr1 : s.step codeKit c with
    | unspecified => rw [hr1] at hs; exact absurd rfl hs
    | refused =>
      rw [hr1] at hc
      obtain ⟨msg, hc⟩ := hc
      have := ((hc _ _).1 h1).2
      simp at this
    | done s1 =>
      rw [hr1] at hc hs
      obtain ⟨w1', ρ1, R1, hc⟩ := hc
      obtain ⟨rfl, -⟩ := (hc _ _).1 h1
      have hQ := run_refines (L := L) (junk := junk) hL Q R1
      cases hr2 : s1.run codeKit Q with
      | unspecified => exact absurd hr2 hs
      | stopped s2 =>
        rw [hr2] at hQ
        obtain ⟨w2', ρ2, msg, R2, hQ⟩ := hQ
        obtain ⟨rfl, -⟩ := (hQ _ _).1 h2
        exact ⟨s, s1, s2, ρ, ρ1, ρ2, R, hr1, R1, by rw [hr2]; rfl, R2⟩
      | finished s2 =>
        rw [hr2] at hQ
        obtain ⟨w2', ρ2, R2, hQ⟩ := hQ
        obtain ⟨rfl, -⟩ := (hQ _ _).1 h2
        exact ⟨s, s1, s2, ρ, ρ1, ρ2, R, hr1, R1, by rw [hr2]; rfl, R2⟩

theorem list_congr {s t : Store} {c : Nat} (h1 : t.val c = s.val c) (h2 : t.qubits c = s.qubits c) : t.list c = s.list c := by
  unfold Store.list; rw [h1, h2]

/-- a command that makes a state denotes a new cell by it -/
theorem makes_vec {K : Kit} {s s1 : Store} {c : Cmd} {x : String} (hx : x ∈ c.makesVec) (hs : s.step K c = .done s1) :
    ∃ n v, s1 = s.fresh x n v := by
  cases c <;> simp only [Cmd.makesVec, List.mem_singleton, List.not_mem_nil] at hx <;> subst hx <;> simp only [Store.step] at hs <;>
    (try split at hs) <;> (try split at hs) <;> simp only [Outcome.done.injEq, reduceCtorEq] at hs <;> exact ⟨_, _, hs.symm⟩

theorem makes_bat {K : Kit} {s s1 : Store} {c : Cmd} {X : String} (hx : X ∈ c.makesBat) (hs : s.step K c = .done s1) :
    ∃ B n v, s1 = s.freshBatch X B n v := by
  cases c <;> simp only [Cmd.makesBat, List.mem_singleton, List.not_mem_nil] at hx <;> subst hx <;> simp only [Store.step] at hs <;>
    (try split at hs) <;> simp only [Outcome.done.injEq, reduceCtorEq] at hs <;> exact ⟨_, _, _, hs.symm⟩

/-- A new state (constructor, `copy()`, `get_state_vector_at`, `get_reduced_state`) stays as it is, whatever is done to other objects. -/
theorem C70_new_state_independent {L minStride : Nat} {junk : Nat → Nat → ℂ} (hL : LanesOK L) {P Q : List Cmd} {c : Cmd} {x : String}
    (hx : x ∈ c.makesVec) (hs : Specified (P ++ c :: Q)) (hQ : ∀ q ∈ Q, x ∉ q.vecs) {w w1 w2 : World} {f : Option Fault}
    (h0 : World.Run L minStride junk World.empty P w none) (h1 : w.Exec L minStride junk c w1 none) (h2 : World.Run L minStride junk w1 Q w2 f) :
    ∃ v1 v2, w1.vec x = some v1 ∧ w2.vec x = some v2 ∧ v2.amplitudes w2.heap = v1.amplitudes w1.heap := by
  obtain ⟨s, s1, s2, ρ, ρ1, ρ2, R, hs1, R1, hr, R2⟩ := after_program hL hs h0 h1 h2
  obtain ⟨n, v, rfl⟩ := makes_vec hx hs1
  have hw := R.wellNamed
  have own : Own (s.fresh x n v) (· = x) (fun _ => False) (· = s.cells) := by
    refine ⟨?_, ?_, ?_⟩
    · rintro c rfl; simp [Store.fresh]
    · rintro y hy d hd rfl
      simp only [Store.fresh] at hd
      rw [Function.update_of_ne hy] at hd
      exact absurd (hw.vec y _ hd) (Nat.lt_irrefl _)
    · rintro Y - m cs hcs d hd rfl
      exact absurd (hw.bat Y m cs hcs _ hd) (Nat.lt_irrefl _)
  have k := own.run (fun q hq y hy e => hQ q hq (e ▸ hy)) (fun _ _ _ _ h => h) hr
  have hx1 : (s.fresh x n v).vec x = some s.cells := by simp [Store.fresh]
  obtain ⟨v1, e1, -, a1⟩ := R1.vec_list hx1
  obtain ⟨v2, e2, -, a2⟩ := R2.vec_list ((k.vec x rfl).trans hx1)
  exact ⟨v1, v2, e1, e2, by rw [a1, a2, list_congr (k.val _ rfl) (k.qubits _ rfl)]⟩

/-- A new batch (constructor, `copy()`) stays as it is, whatever is done to other objects. -/
theorem C70_new_batch_independent {L minStride : Nat} {junk : Nat → Nat → ℂ} (hL : LanesOK L) {P Q : List Cmd} {c : Cmd} {X : String}
    (hx : X ∈ c.makesBat) (hs : Specified (P ++ c :: Q)) (hQ : ∀ q ∈ Q, X ∉ q.bats) {w w1 w2 : World} {f : Option Fault}
    (h0 : World.Run L minStride junk World.empty P w none) (h1 : w.Exec L minStride junk c w1 none) (h2 : World.Run L minStride junk w1 Q w2 f) :
    ∃ v1 v2, w1.bat X = some v1 ∧ w2.bat X = some v2 ∧ v2.amplitudes w2.heap = v1.amplitudes w1.heap := by
  obtain ⟨s, s1, s2, ρ, ρ1, ρ2, R, hs1, R1, hr, R2⟩ := after_program hL hs h0 h1 h2
  obtain ⟨B, n, v, rfl⟩ := makes_bat hx hs1
  have hw := R.wellNamed
  have own : Own (s.freshBatch X B n v) (fun _ => False) (· = X) (fun c => s.cells ≤ c ∧ c < s.cells + B) := by
    refine ⟨fun c hc => hc.2, ?_, ?_⟩
    · rintro y - d hd hC
      have : d < s.cells := hw.vec y d hd
      omega
    · rintro Y hY m cs hcs d hd hC
      simp only [Store.freshBatch] at hcs
      rw [Function.update_of_ne hY] at hcs
      have := hw.bat Y m cs hcs d hd
      omega
  have k := own.run (fun _ _ _ _ h => h) (fun q hq y hy e => hQ q hq (e ▸ hy)) hr
  have hx1 : (s.freshBatch X B n v).bat X = some (n, (List.range B).map (s.cells + ·)) := by simp [Store.freshBatch]
  obtain ⟨v1, e1, -, a1⟩ := R1.bat_list hx1
  obtain ⟨v2, e2, -, a2⟩ := R2.bat_list ((k.bat X rfl).trans hx1)
  refine ⟨v1, v2, e1, e2, ?_⟩
  rw [a1, a2]
  refine List.map_congr_left fun d hd => ?_
  simp only [List.mem_map, List.mem_range] at hd
  obtain ⟨b, hb, rfl⟩ := hd
  exact list_congr (k.val _ ⟨by omega, by omega⟩) (k.qubits _ ⟨by omega, by omega⟩)

/-- Whatever is done to a new state alone, all other objects stay as they are. -/
theorem C70_others_unchanged {L minStride : Nat} {junk : Nat → Nat → ℂ} (hL : LanesOK L) {P Q : List Cmd} {c : Cmd} {x : String}
    (hx : x ∈ c.makesVec) (hs : Specified (P ++ c :: Q)) (hQ : ∀ q ∈ Q, (∀ y ∈ q.vecs, y = x) ∧ q.bats = []) {w w1 w2 : World} {f : Option Fault}
    (h0 : World.Run L minStride junk World.empty P w none) (h1 : w.Exec L minStride junk c w1 none) (h2 : World.Run L minStride junk w1 Q w2 f) :
    (∀ y v, y ≠ x → w.vec y = some v → ∃ v2, w2.vec y = some v2 ∧ v2.amplitudes w2.heap = v.amplitudes w.heap) ∧
    (∀ Y v, w.bat Y = some v → ∃ v2, w2.bat Y = some v2 ∧ v2.amplitudes w2.heap = v.amplitudes w.heap) := by
  obtain ⟨s, s1, s2, ρ, ρ1, ρ2, R, hs1, R1, hr, R2⟩ := after_program hL hs h0 h1 h2
  obtain ⟨n, v, rfl⟩ := makes_vec hx hs1
  have hw := R.wellNamed
  have own : Own (s.fresh x n v) (· ≠ x) (fun _ => True) (· < s.cells) := by
    refine ⟨fun c hc => by simp only [Store.fresh]; omega, ?_, fun Y h => absurd trivial h⟩
    intro y hy d hd
    have hy : y = x := not_not.mp hy
    subst hy
    simp only [Store.fresh, Function.update_self, Option.some.injEq] at hd
    omega
  have k := own.run (fun q hq y hy h => h ((hQ q hq).1 y hy)) (fun q hq Y hY => by rw [(hQ q hq).2] at hY; simp at hY) hr
  have hl : ∀ d, d < s.cells → s2.list d = s.list d := by
    intro d hd
    refine list_congr ((k.val d hd).trans ?_) ((k.qubits d hd).trans ?_)
    · simp only [Store.fresh]; rw [Function.update_of_ne (by omega)]
    · simp only [Store.fresh]; rw [Function.update_of_ne (by omega)]
  constructor
  · intro y u hy hu
    cases hy0 : s.vec y with
    | none => rw [R.vec, hy0] at hu; simp at hu
    | some d =>
      have hd : (s.fresh x n v).vec y = some d := by simp only [Store.fresh]; rw [Function.update_of_ne hy]; exact hy0
      obtain ⟨v1, e1, -, a1⟩ := R.vec_list hy0
      obtain ⟨v2, e2, -, a2⟩ := R2.vec_list ((k.vec y hy).trans hd)
      rw [hu] at e1
      cases e1
      exact ⟨v2, e2, by rw [a1, a2, hl d (hw.vec y d hy0)]⟩
  · intro Y u hu
    cases hY0 : s.bat Y with
    | none => rw [R.nobat Y hY0] at hu; simp at hu
    | some p =>
      obtain ⟨m, cs⟩ := p
      obtain ⟨v1, e1, -, a1⟩ := R.bat_list hY0
      obtain ⟨v2, e2, -, a2⟩ := R2.bat_list ((k.bat Y trivial).trans hY0)
      rw [hu] at e1
      cases e1
      exact ⟨v2, e2, by rw [a1, a2]; exact List.map_congr_left fun d hd => hl d (hw.bat Y m cs hY0 d hd)⟩

/-! ## views and C++ copies -/

/-- `x = X.view_state_vector_at(b)`: whatever is done afterwards to `x`, to `X` or to anything else, `x` is row `b` of `X`, as long as
neither is assigned.  Missing: matrix gates that swap buffers (`C70_sharing_counterexample`). -/
theorem C70_view_partial {L minStride : Nat} {junk : Nat → Nat → ℂ} (hL : LanesOK L) {P Q : List Cmd} {x X : String} {b : Nat}
    (hs : Specified (P ++ .view x X b :: Q)) (hQ : ∀ q ∈ Q, x ∉ q.assignsVec ∧ X ∉ q.assignsBat ∧ ∀ d ∈ q.gates, SmallMatrix d)
    {w w1 w2 : World} {f : Option Fault}
    (h0 : World.Run L minStride junk World.empty P w none) (h1 : w.Exec L minStride junk (.view x X b) w1 none)
    (h2 : World.Run L minStride junk w1 Q w2 f) :
    ∃ v V, w2.vec x = some v ∧ w2.bat X = some V ∧ (V.amplitudes w2.heap)[b]? = some (v.amplitudes w2.heap) := by
  obtain ⟨s, s1, s2, ρ, ρ1, ρ2, R, hs1, R1, hr, R2⟩ := after_program hL hs h0 h1 h2
  simp only [Store.step] at hs1
  cases hX : s.bat X with
  | none => rw [hX] at hs1; simp at hs1
  | some p =>
    obtain ⟨n, cs⟩ := p
    rw [hX] at hs1
    simp only at hs1
    split at hs1
    · next hb =>
      cases hs1
      have inv : s2.vec x = some cs[b] ∧ s2.bat X = some (n, cs) := by
        refine run_invariant (fun t => t.vec x = some cs[b] ∧ t.bat X = some (n, cs)) Q ?_ (s := { s with vec := Function.update s.vec x (some cs[b]) })
          ⟨Function.update_self .., hX⟩ hr
        intro c hc t t' ht hst
        obtain ⟨q1, q2, q3⟩ := hQ c hc
        have hK : ∀ d ∈ c.gates, ¬ codeKit.rebinds d := fun d hd h => h (q3 d hd)
        exact ⟨(step_vec q1 hK hst).trans ht.1, (step_bat q2 hK hst).trans ht.2⟩
      obtain ⟨v, e1, -, a1⟩ := R2.vec_list inv.1
      obtain ⟨V, e2, -, a2⟩ := R2.bat_list inv.2
      refine ⟨v, V, e1, e2, ?_⟩
      rw [a1, a2]
      simp [hb]
    · cases hs1

/-- `StateVector x(y)`: whatever is done afterwards, `x` and `y` show the same amplitudes, as long as neither is assigned.  Missing:
matrix gates that swap buffers. -/
theorem C70_copied_handle_partial {L minStride : Nat} {junk : Nat → Nat → ℂ} (hL : LanesOK L) {P Q : List Cmd} {x y : String}
    (hs : Specified (P ++ .shareVec x y :: Q)) (hQ : ∀ q ∈ Q, x ∉ q.assignsVec ∧ y ∉ q.assignsVec ∧ ∀ d ∈ q.gates, SmallMatrix d)
    {w w1 w2 : World} {f : Option Fault}
    (h0 : World.Run L minStride junk World.empty P w none) (h1 : w.Exec L minStride junk (.shareVec x y) w1 none)
    (h2 : World.Run L minStride junk w1 Q w2 f) :
    ∃ v u, w2.vec x = some v ∧ w2.vec y = some u ∧ v.amplitudes w2.heap = u.amplitudes w2.heap := by
  obtain ⟨s, s1, s2, ρ, ρ1, ρ2, R, hs1, R1, hr, R2⟩ := after_program hL hs h0 h1 h2
  simp only [Store.step] at hs1
  cases hy : s.vec y with
  | none => rw [hy] at hs1; simp at hs1
  | some c =>
    rw [hy] at hs1
    cases hs1
    have inv : s2.vec x = some c ∧ s2.vec y = some c := by
      refine run_invariant (fun t => t.vec x = some c ∧ t.vec y = some c) Q ?_ ⟨by simp, ?_⟩ hr
      · intro q hq t t' ht hst
        obtain ⟨q1, q2, q3⟩ := hQ q hq
        have hK : ∀ d ∈ q.gates, ¬ codeKit.rebinds d := fun d hd h => h (q3 d hd)
        exact ⟨(step_vec q1 hK hst).trans ht.1, (step_vec q2 hK hst).trans ht.2⟩
      · by_cases e : y = x
        · subst e; simp
        · simp only; rw [Function.update_of_ne e]; exact hy
    obtain ⟨v, e1, -, a1⟩ := R2.vec_list inv.1
    obtain ⟨u, e2, -, a2⟩ := R2.vec_list inv.2
    exact ⟨v, u, e1, e2, by rw [a1, a2]⟩

/-- `x = y.copy()` shows the amplitudes of `y`. -/
theorem C70_copy_equal {L minStride : Nat} {junk : Nat → Nat → ℂ} (hL : LanesOK L) {P : List Cmd} {x y : String}
    (hs : Specified (P ++ [.copyVec x y])) {w w1 : World}
    (h0 : World.Run L minStride junk World.empty P w none) (h1 : w.Exec L minStride junk (.copyVec x y) w1 none) :
    ∃ v u, w1.vec x = some v ∧ w.vec y = some u ∧ v.n = u.n ∧ v.amplitudes w1.heap = u.amplitudes w.heap := by
  obtain ⟨s, s1, s2, ρ, ρ1, ρ2, R, hs1, R1, -, -⟩ := after_program hL hs h0 h1 (.nil w1)
  simp only [Store.step] at hs1
  cases hy : s.vec y with
  | none => rw [hy] at hs1; simp at hs1
  | some c =>
    rw [hy] at hs1
    cases hs1
    obtain ⟨v, e1, n1, a1⟩ := R1.vec_list (x := x) (c := s.cells) (by simp [Store.fresh])
    obtain ⟨u, e2, n2, a2⟩ := R.vec_list hy
    refine ⟨v, u, e1, e2, ?_, ?_⟩
    · rw [n1, n2]; simp [Store.fresh]
    · rw [a1, a2]; simp [Store.fresh, Store.list]

/-- Why the specification leaves `X.set_state_vector(y)` open when `y` is a view of a row of `X`: with two or more rows the kernel has a
data race, so the program has no behaviour. -/
theorem C70_own_view_races {L minStride : Nat} {junk : Nat → Nat → ℂ} (hL : LanesOK L) {P : List Cmd} {X y : String} {s : Store} {n d : Nat}
    {cs : List Nat} (hs : Store.empty.run codeKit P = .finished s) (hX : s.bat X = some (n, cs)) (hy : s.vec y = some d) (hd : d ∈ cs)
    (h2 : 2 ≤ cs.length) {w : World} (h0 : World.Run L minStride junk World.empty P w none) :
    (∃ v u c, w.bat X = some v ∧ w.vec y = some u ∧
      Relation.ReflTransGen (Step fun a => w.heap.Valid a ∧ (v.Mem a ∨ u.Mem a)) (spreadBat v u, w.heap.cell) c ∧ Race c) ∧
    ∀ w' f, ¬ w.Exec L minStride junk (.setAll X y) w' f := by
  have hP := run_refines (L := L) (junk := junk) hL P (rel_empty minStride fun _ => (0, 0))
  rw [hs] at hP
  obtain ⟨w0, ρ, R, hP⟩ := hP
  obtain ⟨rfl, -⟩ := (hP _ _).1 h0
  obtain ⟨v, ev, hv⟩ := R.bat X n cs hX
  have eu : w.vec y = some (vecAt s ρ d) := by rw [R.vec, hy]; rfl
  obtain ⟨b, hb, rfl⟩ := List.getElem_of_mem hd
  obtain ⟨hc, hn, hp⟩ := hv.cell b hb
  have hb' : b < v.size := by rw [hv.size]; exact hb
  have h0' : 0 < v.dim := by rw [hv.dim]; exact Nat.two_pow_pos n
  obtain ⟨b2, hb2, hne⟩ : ∃ b2, b2 < v.size ∧ b2 ≠ b := by
    rw [hv.size]
    by_cases e : b = 0
    · exact ⟨1, by omega, by omega⟩
    · exact ⟨0, by omega, fun h => e h.symm⟩
  have ea : v.addr b 0 = (vecAt s ρ cs[b]).addr 0 := by
    simp [SBat.addr, SVec.addr, vecAt, hp]
  have ok : w.heap.Valid ((vecAt s ρ cs[b]).addr 0) ∧ (v.Mem ((vecAt s ρ cs[b]).addr 0) ∨ (vecAt s ρ cs[b]).Mem ((vecAt s ρ cs[b]).addr 0)) :=
    ⟨R.heap.valid (i := 0) hc (Nat.two_pow_pos _), Or.inr ⟨0, Nat.two_pow_pos _, rfl⟩⟩
  let k : Fin v.size × Fin v.dim := (⟨b, hb'⟩, ⟨0, h0'⟩)
  let k2 : Fin v.size × Fin v.dim := (⟨b2, hb2⟩, ⟨0, h0'⟩)
  have hk : k2 ≠ k := fun e => hne (by simpa [k, k2] using e)
  have race : ∃ c, Relation.ReflTransGen (Step fun a => w.heap.Valid a ∧ (v.Mem a ∨ (vecAt s ρ cs[b]).Mem a))
      (spreadBat v (vecAt s ρ cs[b]), w.heap.cell) c ∧ Race c := by
    refine ⟨_, .single (Step.read _ _ k _ _ rfl ok), k, k2, (vecAt s ρ cs[b]).addr 0, hk.symm, ?_, ?_⟩
    · refine ⟨w.heap.cell ((vecAt s ρ cs[b]).addr 0), .pure (), ?_⟩
      simp only [Function.update_self]
      rw [← ea]
      rfl
    · refine Or.inl ⟨fun x => Prog.store (v.addr b2 0) x, ?_⟩
      simp only [Function.update_of_ne hk]
      rfl
  obtain ⟨c, hc1, hc2⟩ := race
  refine ⟨⟨v, _, c, ev, eu, hc1, hc2⟩, fun w' f hE => ?_⟩
  simp only [World.Exec, ev, eu] at hE
  rw [if_neg (by simp [vecAt, hv.dim, hn])] at hE
  obtain ⟨h, ⟨hr, -, -⟩, -⟩ := hE
  exact hr.no_race c hc1 hc2

/-! ## non-trivial cases -/

/-- the gate X on qubit 0 as a sparse matrix -/
def bigX : GateDesc := .sparse [0] sparseX [] []

theorem bigX_accepted : AcceptedGate bigX := by
  obtain ⟨g, hg⟩ := sparseX_builds
  exact ⟨sparseX_ok, .sparse g, by show (mkSparse [0] sparseX [] [] >>= fun g => _) = _; rw [hg]; rfl⟩

theorem bigX_fits {n : Nat} (hn : 0 < n) : ∀ q ∈ qubitsOf bigX, q < n := by
  intro q hq
  simp [bigX, qubitsOf, targetsOf, controlsOf, ctrlList, effectiveValues] at hq
  omega

/-- the gate X on qubit 0 -/
def plainX : GateDesc := .one .X 0 [] []

theorem plainX_accepted : AcceptedGate plainX := by
  obtain ⟨g, hg⟩ := build_one .X (q := 0) (cs := []) (vs := []) (by norm_num) (by simp) (by simp) (by simp) (by simp [effectiveValues])
    (by simp [effectiveValues])
  exact ⟨trivial, g, hg⟩

theorem plainX_fits {n : Nat} (hn : 0 < n) : ∀ q ∈ qubitsOf plainX, q < n := by
  intro q hq
  simp [plainX, qubitsOf, targetsOf, controlsOf, ctrlList, effectiveValues] at hq
  omega

/-- a program: a batch, a view of one row, a copy of the other row, updates of all three -/
def sample (d : GateDesc) : List Cmd :=
  [.newBatch "X" 2 1, .view "x" "X" 0, .getAt "y" "X" 1, .gate "x" d, .setBasis "y" 1, .mulBatch "X" 2]

theorem sample_specified {d : GateDesc} (h : AcceptedGate d ∧ ∀ q ∈ qubitsOf d, q < 1) : Specified (sample d) := by
  have h2 : ∀ q ∈ qubitsOf d, q = 0 := fun q hq => Nat.lt_one_iff.mp (h.2 q hq)
  unfold Specified sample
  by_cases hs : SmallMatrix d <;>
    simp [Store.run, Store.step, Store.empty, Store.fresh, Store.freshBatch, Store.set, codeKit, h.1, hs, Function.update, if_pos h2]

example : Specified (sample plainX) := sample_specified ⟨plainX_accepted, plainX_fits (by norm_num)⟩
example : ∀ c ∈ sample plainX, ∀ d ∈ c.gates, SmallMatrix d := by
  simp [sample, Cmd.gates, plainX, SmallMatrix]

/-- the view of row 0 with the commands after it meets the hypotheses of `C70_view_partial` -/
example : Specified ([.newBatch "X" 2 1] ++ .view "x" "X" 0 :: [.getAt "y" "X" 1, .gate "x" plainX, .setBasis "y" 1, .mulBatch "X" 2]) ∧
    ∀ q ∈ [Cmd.getAt "y" "X" 1, .gate "x" plainX, .setBasis "y" 1, .mulBatch "X" 2],
      "x" ∉ q.assignsVec ∧ "X" ∉ q.assignsBat ∧ ∀ d ∈ q.gates, SmallMatrix d :=
  ⟨sample_specified ⟨plainX_accepted, plainX_fits (by norm_num)⟩, by simp [Cmd.assignsVec, Cmd.assignsBat, Cmd.gates, plainX, SmallMatrix]⟩

/-- the copy of row 1 with the commands after it meets the hypotheses of `C70_new_state_independent` when `y` is left alone -/
example : Specified ([.newBatch "X" 2 1, .view "x" "X" 0] ++ .getAt "y" "X" 1 :: [.gate "x" plainX, .mulBatch "X" 2]) ∧
    "y" ∈ (Cmd.getAt "y" "X" 1).makesVec ∧ ∀ q ∈ [Cmd.gate "x" plainX, .mulBatch "X" 2], "y" ∉ q.vecs := by
  refine ⟨?_, by simp [Cmd.makesVec], by simp [Cmd.vecs]⟩
  have h1 := plainX_accepted
  have h2 : ∀ q ∈ qubitsOf plainX, q = 0 := fun q hq => Nat.lt_one_iff.mp (plainX_fits (n := 1) (by norm_num) q hq)
  have hs : SmallMatrix plainX := trivial
  unfold Specified
  simp [Store.run, Store.step, Store.empty, Store.fresh, Store.freshBatch, Store.set, codeKit, h1, hs, Function.update, if_pos h2]

/-- the copy of row 1 with a command on the copy alone meets the hypotheses of `C70_others_unchanged` -/
example : Specified ([.newBatch "X" 2 1, .view "x" "X" 0] ++ .getAt "y" "X" 1 :: [.gate "y" plainX, .mulCoef "y" 2]) ∧
    ∀ q ∈ [Cmd.gate "y" plainX, .mulCoef "y" 2], (∀ z ∈ q.vecs, z = "y") ∧ q.bats = [] := by
  refine ⟨?_, by simp [Cmd.vecs, Cmd.bats]⟩
  have h1 := plainX_accepted
  have h2 : ∀ q ∈ qubitsOf plainX, q = 0 := fun q hq => Nat.lt_one_iff.mp (plainX_fits (n := 1) (by norm_num) q hq)
  have hs : SmallMatrix plainX := trivial
  unfold Specified
  simp [Store.run, Store.step, Store.empty, Store.fresh, Store.freshBatch, Store.set, codeKit, h1, hs, Function.update, if_pos h2]

/-- a copy of the batch, after which the batch is changed through a view, meets the hypotheses of `C70_new_batch_independent` -/
example : Specified ([.newBatch "X" 2 1, .view "x" "X" 0] ++ .copyBatch "Y" "X" :: [.gate "x" bigX, .mulBatch "X" 2]) ∧
    "Y" ∈ (Cmd.copyBatch "Y" "X").makesBat ∧ ∀ q ∈ [Cmd.gate "x" bigX, .mulBatch "X" 2], "Y" ∉ q.bats := by
  refine ⟨?_, by simp [Cmd.makesBat], by simp [Cmd.bats]⟩
  have h1 := bigX_accepted
  have h2 : ∀ q ∈ qubitsOf bigX, q = 0 := fun q hq => Nat.lt_one_iff.mp (bigX_fits (n := 1) (by norm_num) q hq)
  have hs : ¬ SmallMatrix bigX := fun h => h
  unfold Specified
  simp [Store.run, Store.step, Store.empty, Store.fresh, Store.freshBatch, Store.set, codeKit, h1, hs, Function.update, if_pos h2]

/-- a C++ copy of a state and updates through both names meet the hypotheses of `C70_copied_handle_partial` -/
example : Specified ([.newVec "y" 1] ++ .shareVec "x" "y" :: [.gate "x" plainX, .mulCoef "y" 2]) ∧
    ∀ q ∈ [Cmd.gate "x" plainX, .mulCoef "y" 2], "x" ∉ q.assignsVec ∧ "y" ∉ q.assignsVec ∧ ∀ d ∈ q.gates, SmallMatrix d := by
  refine ⟨?_, by simp [Cmd.assignsVec, Cmd.gates, plainX, SmallMatrix]⟩
  have h1 := plainX_accepted
  have h2 : ∀ q ∈ qubitsOf plainX, q = 0 := fun q hq => Nat.lt_one_iff.mp (plainX_fits (n := 1) (by norm_num) q hq)
  have hs : SmallMatrix plainX := trivial
  unfold Specified
  simp [Store.run, Store.step, Store.empty, Store.fresh, Store.set, codeKit, h1, hs, Function.update, if_pos h2]

/-- a copy of a state that has been changed meets the hypothesis of `C70_copy_equal` -/
example : Specified ([.newVec "y" 3, .setBasis "y" 5] ++ [.copyVec "x" "y"]) := by
  unfold Specified
  simp [Store.run, Store.step, Store.empty, Store.fresh, Store.set, Function.update]

/-- a batch of two states and a view of its first row meet the hypotheses of `C70_own_view_races` -/
example : ∃ s, Store.empty.run codeKit [.newBatch "X" 2 1, .view "x" "X" 0] = .finished s ∧ s.bat "X" = some (1, [0, 1]) ∧ s.vec "x" = some 0 := by
  let s : Store := ⟨2, fun _ => 1, fun _ => basisState 0, Function.update (fun _ => none) "x" (some 0),
    Function.update (fun _ => none) "X" (some (1, [0, 1]))⟩
  have hr : List.range 2 = [0, 1] := rfl
  exact ⟨s, by simp [Store.run, Store.step, Store.empty, Store.freshBatch, s, hr], by simp [s], by simp [s]⟩

/-! ## the disagreement -/

/-- a batch of two states, a view of the first, and a gate on the view -/
def lostUpdate : List Cmd := [.newBatch "X" 2 1, .view "x" "X" 0, .gate "x" bigX]

/-- An update of a view by a sparse matrix gate does not reach the batch: row 0 of the batch should be `(0, 1)` and is `(1, 0)`, although
the view itself is `(0, 1)`. -/
theorem C70_sharing_counterexample : ∃ s, Store.empty.run plainKit lostUpdate = .finished s ∧ s.bat "X" = some (1, [0, 1]) ∧ s.list 0 = [0, 1] ∧
    ∀ {L : Nat}, LanesOK L → ∀ minStride junk, (∃ w, World.Run L minStride junk World.empty lostUpdate w none) ∧
      ∀ w f, World.Run L minStride junk World.empty lostUpdate w f → ¬ Shows w s ∧
        ∃ v V, w.vec "x" = some v ∧ v.amplitudes w.heap = [0, 1] ∧ w.bat "X" = some V ∧ V.amplitudes w.heap = [[1, 0], [1, 0]] := by
  have h1 := bigX_accepted
  have h2 : ∀ q ∈ qubitsOf bigX, q = 0 := fun q hq => Nat.lt_one_iff.mp (bigX_fits (n := 1) (by norm_num) q hq)
  have hs : ¬ SmallMatrix bigX := fun h => h
  have hr : List.range 2 = [0, 1] := rfl
  let v := onState 2 (operatorOf bigX) (basisState 0)
  let s : Store := ⟨2, fun _ => 1, Function.update (fun _ => basisState 0) 0 v, Function.update (fun _ => none) "x" (some 0),
    Function.update (fun _ => none) "X" (some (1, [0, 1]))⟩
  let t : Store := ⟨3, fun _ => 1, Function.update (fun _ => basisState 0) 2 v, Function.update (fun _ => none) "x" (some 2),
    Function.update (fun _ => none) "X" (some (1, [0, 1]))⟩
  have e1 : Store.empty.run plainKit lostUpdate = .finished s := by
    simp [lostUpdate, Store.run, Store.step, Store.empty, Store.freshBatch, Store.set, plainKit, h1, if_pos h2, s, v, hr]
  have e2 : Store.empty.run codeKit lostUpdate = .finished t := by
    simp [lostUpdate, Store.run, Store.step, Store.empty, Store.fresh, Store.freshBatch, Store.set, codeKit, h1, hs, if_pos h2, t, v, hr]
  have hv : (List.range 2).map (fun i => v (BitVec.ofNat 64 i)) = [0, 1] := by
    have : ∀ j : U64, v j = if j.toNat < 2 then basisState 0 (j ^^^ 1) else basisState 0 j := by
      intro j
      show onState 2 (operatorOf (.sparse [0] sparseX [] [])) (basisState 0) j = _
      unfold onState
      rw [sparseX_acts]
    rw [hr]
    simp [this, basisState]
  have hb : (List.range 2).map (fun i => basisState 0 (BitVec.ofNat 64 i)) = ([1, 0] : List ℂ) := by
    rw [hr]; simp [basisState]
  have l0 : s.list 0 = [0, 1] := by
    simpa [Store.list, s] using hv
  refine ⟨s, e1, by simp [s], l0, fun hL ms junk => ?_⟩
  have h := C70_sharing_exact hL ms junk lostUpdate
  rw [e2] at h
  obtain ⟨w0, sh, h⟩ := h
  refine ⟨⟨w0, (h _ _).2 ⟨rfl, rfl⟩⟩, fun w f hw => ?_⟩
  obtain ⟨rfl, -⟩ := (h _ _).1 hw
  obtain ⟨u, eu, -, au⟩ := sh.vec "x" 2 (by simp [t])
  obtain ⟨U, eU, -, aU⟩ := sh.bat "X" 1 [0, 1] (by simp [t])
  have au' : u.amplitudes w.heap = [0, 1] := by
    rw [au]; simpa [Store.list, t] using hv
  have aU' : U.amplitudes w.heap = [[1, 0], [1, 0]] := by
    rw [aU]
    have : ∀ c, c ≠ 2 → t.list c = [1, 0] := by
      intro c hc
      have : t.val c = basisState 0 := by
        show Function.update (fun _ => basisState 0) 2 v c = _
        exact Function.update_of_ne hc ..
      unfold Store.list
      rw [this]
      exact hb
    simp [this]
  refine ⟨fun sh' => ?_, u, U, eu, au', eU, aU'⟩
  obtain ⟨U', eU', -, bU⟩ := sh'.bat "X" 1 [0, 1] (by simp [s])
  rw [eU] at eU'
  cases eU'
  rw [aU'] at bU
  simp [l0] at bU

end Verif.Props
