import Verif.Proofs.DensityObjects

/-!
# C91: density matrices as objects

`DWorld.Execs` (Model/DensityObjects) executes programs on handles of memory; `DStore.run` and `DValues.run` (Spec/DensityObjects) have
no memory.
-/

namespace Verif.Props
open Verif Verif.Model Verif.Spec Verif.Proofs
open scoped ComplexConjugate

/-- what `n_qubits()`, `is_hermitian()` and `get_coherence_at` report about the object `x` -/
def ReportsDM (w : DWorld) (x : String) (v : DVal) : Prop :=
  ∃ o, w.obj x = some o ∧ o.n = v.n ∧ o.hermitian = v.flag ∧
    (∀ r c, r < 2 ^ v.n → c < 2 ^ v.n → (o.view w.heap).coherence r c = .ok (v.elem (BitVec.ofNat 64 r, BitVec.ofNat 64 c))) ∧
    ∀ r c, ¬ (r < 2 ^ v.n ∧ c < 2 ^ v.n) → ∃ msg, (o.view w.heap).coherence r c = .error (.throw msg)

/-- the objects are those of `s` -/
def ShowsStore (w : DWorld) (s : DStore) : Prop :=
  (∀ x c f, s.obj x = some (c, f) → ReportsDM w x (s.val c f)) ∧ ∀ x, s.obj x = none → w.obj x = none

/-- the objects are those of `vs` -/
def ShowsValues (w : DWorld) (vs : DValues) : Prop := (∀ x v, vs x = some v → ReportsDM w x v) ∧ ∀ x, vs x = none → w.obj x = none

theorem showsStore {w : DWorld} {s : DStore} (H : DRel w s) : ShowsStore w s := by
  refine ⟨fun x c f hx => ⟨_, H.handle hx, rfl, rfl, fun r k hr hk => ?_, fun r k h => ?_⟩, fun x hx => by rw [H.obj, hx]; rfl⟩
  · have hc : c < s.count := H.inside x _ hx
    have hn := H.small c hc
    have hr : r < 2 ^ s.qubits c := hr
    have hk : k < 2 ^ s.qubits c := hk
    have hin := inMat_ofNat (n := s.qubits c) (row := r) (col := k) (by omega) (by omega)
    unfold DM.coherence readM
    rw [if_neg (by show ¬ (r ≥ 2 ^ s.qubits c ∨ k ≥ 2 ^ s.qubits c); omega), if_pos ⟨hin.1, hin.2⟩]
    exact congrArg _ (H.vals c hc _ ⟨hin.1, hin.2⟩)
  · have h : ¬ (r < 2 ^ s.qubits c ∧ k < 2 ^ s.qubits c) := h
    unfold DM.coherence
    rw [if_pos (by show r ≥ 2 ^ s.qubits c ∨ k ≥ 2 ^ s.qubits c; omega)]
    exact ⟨_, rfl⟩

theorem showsValues {w : DWorld} {s : DStore} {vs : DValues} (H : DRel w s) (A : DApart s vs) : ShowsValues w vs := by
  refine ⟨fun x v hx => ?_, fun x hx => ?_⟩
  · rw [A.vals] at hx
    obtain ⟨⟨c, f⟩, h1, h2⟩ := Option.map_eq_some_iff.1 hx
    rw [← h2]
    exact (showsStore H).1 x c f h1
  · rw [A.vals] at hx
    exact (showsStore H).2 x (Option.map_eq_none_iff.1 hx)

/-- **C91 (all programs).** Every program that constructs, copies, wraps, traces out, loads, adds and changes density matrices has
exactly one result, whatever new memory contains, and it is that of the specification: objects that share a matrix see each other's
changes of it but not of `is_hermitian()`, all others are independent; also when an object is loaded from or added to itself or to one
that shares its matrix. -/
theorem C91_objects (junk : Nat → U64 × U64 → ℂ) (P : List DCmd) {s : DStore} (h : DStore.empty.run Buildable P = .finished s) :
    ∃ w, (∀ w' f, DWorld.empty.Execs junk P w' f ↔ w' = w ∧ f = none) ∧ ShowsStore w s := by
  have := dexecs junk P DRel.empty
  rw [h] at this
  obtain ⟨w, h1, h2⟩ := this
  exact ⟨w, h1, showsStore h2⟩

/-- **C91 (exceptions).** When the specification refuses a command an exception is thrown and the objects are as before it. -/
theorem C91_refused (junk : Nat → U64 × U64 → ℂ) (P : List DCmd) {s : DStore} (h : DStore.empty.run Buildable P = .stopped s) :
    ∃ w msg, (∀ w' f, DWorld.empty.Execs junk P w' f ↔ w' = w ∧ f = some (.throw msg)) ∧ ShowsStore w s := by
  have := dexecs junk P DRel.empty
  rw [h] at this
  obtain ⟨w, msg, h1, h2⟩ := this
  exact ⟨w, msg, h1, showsStore h2⟩

/-- **C91 (values).** In programs that do not copy or wrap handles, as all Python programs, objects are independent values: a command
changes the object it is called on and no other. -/
theorem C91_values (junk : Nat → U64 × U64 → ℂ) (P : List DCmd) (hP : ∀ c ∈ P, ¬ c.Shares) :
    (∀ vs, DValues.run Buildable (fun _ => none) P = .finished vs →
      ∃ w, (∀ w' f, DWorld.empty.Execs junk P w' f ↔ w' = w ∧ f = none) ∧ ShowsValues w vs) ∧
    ∀ vs, DValues.run Buildable (fun _ => none) P = .stopped vs →
      ∃ w msg, (∀ w' f, DWorld.empty.Execs junk P w' f ↔ w' = w ∧ f = some (.throw msg)) ∧ ShowsValues w vs := by
  have hA := apart_run Buildable P DApart.empty hP
  have hE := dexecs junk P DRel.empty
  constructor
  · intro vs h
    rw [h] at hA
    obtain ⟨s, h1, A⟩ := hA
    rw [h1] at hE
    obtain ⟨w, h2, H⟩ := hE
    exact ⟨w, h2, showsValues H A⟩
  · intro vs h
    rw [h] at hA
    obtain ⟨s, h1, A⟩ := hA
    rw [h1] at hE
    obtain ⟨w, msg, h2, H⟩ := hE
    exact ⟨w, msg, h2, showsValues H A⟩

/-- **C91 (`is_hermitian()`, without shared matrices).** When what the program claims about matrices is true and no handle is copied or
wrapped, every object that answers `true` holds a Hermitian matrix.

`_partial`: with copied handles this is false, see `C91_flag_counterexample`. -/
theorem C91_flag_partial (junk : Nat → U64 × U64 → ℂ) (P : List DCmd) (hP : ∀ c ∈ P, ¬ c.Shares)
    (ht : DValues.Truthful Buildable (fun _ => none) P) (hd : DValues.run Buildable (fun _ => none) P ≠ .unspecified)
    {w : DWorld} {f : Option Fault} (h : DWorld.empty.Execs junk P w f) {x : String} {o : DHandle} (hx : w.obj x = some o)
    (ho : o.hermitian = true) : HermitianOn (2 ^ o.n) fun p => w.heap.cell (o.buf, p) := by
  have hA := apart_run Buildable P DApart.empty hP
  have hE := dexecs junk P DRel.empty
  have hr : Right fun _ => none := by intro x v hv; cases hv
  have key : ∃ s vs, DRel w s ∧ DApart s vs ∧ Right vs := by
    cases hc : DValues.run Buildable (fun _ => none) P with
    | unspecified => exact (hd hc).elim
    | finished vs =>
      rw [hc] at hA
      obtain ⟨s, h1, A⟩ := hA
      rw [h1] at hE
      obtain ⟨w1, h2, H⟩ := hE
      obtain ⟨rfl, -⟩ := (h2 w f).1 h
      exact ⟨s, vs, H, A, right_run P hr ht vs (Or.inl hc)⟩
    | stopped vs =>
      rw [hc] at hA
      obtain ⟨s, h1, A⟩ := hA
      rw [h1] at hE
      obtain ⟨w1, msg, h2, H⟩ := hE
      obtain ⟨rfl, -⟩ := (h2 w f).1 h
      exact ⟨s, vs, H, A, right_run P hr ht vs (Or.inr hc)⟩
  obtain ⟨s, vs, H, A, R⟩ := key
  rw [H.obj] at hx
  obtain ⟨⟨c, g⟩, h1, h2⟩ := Option.map_eq_some_iff.1 hx
  rw [← h2] at ho ⊢
  have hc : c < s.count := H.inside x _ h1
  obtain ⟨-, h3⟩ := R x _ (A.val h1)
  intro i j hi hj
  show w.heap.cell (c, (i, j)) = conj (w.heap.cell (c, (j, i)))
  rw [H.vals c hc _ ⟨hi, hj⟩, H.vals c hc _ ⟨hj, hi⟩]
  exact h3 ho i j hi hj

/-- `DensityMatrix x(1); DensityMatrix y = x; y.set_coherence_at(0, 1, 1);` -/
def sharedProgram : List DCmd := [.new "x" 1, .same "y" "x", .act "y" (.coherence 0 1 1)]

/-- **C91 (deviation).** Two objects with one matrix: `y` makes the matrix non-Hermitian, and `x.is_hermitian()` stays `true`. -/
theorem C91_flag_counterexample (junk : Nat → U64 × U64 → ℂ) :
    ∃ w, (∀ w' f, DWorld.empty.Execs junk sharedProgram w' f ↔ w' = w ∧ f = none) ∧
      ∃ o, w.obj "x" = some o ∧ o.n = 1 ∧ o.hermitian = true ∧ ¬ HermitianOn (2 ^ o.n) fun p => w.heap.cell (o.buf, p) := by
  have hE := dexecs junk sharedProgram DRel.empty
  have hs : DStore.empty.run Buildable sharedProgram = .finished
      (((DStore.empty.fresh "x" ⟨1, true, basisMatrix 0⟩).obj "x").elim .empty fun o =>
        DStore.set { DStore.empty.fresh "x" ⟨1, true, basisMatrix 0⟩ with
          obj := Function.update (DStore.empty.fresh "x" ⟨1, true, basisMatrix 0⟩).obj "y" (some o) } "y" 0
          ⟨1, false, fun p => if p.1.toNat = 0 ∧ p.2.toNat = 1 then 1 else basisMatrix 0 p⟩) := by
    simp [sharedProgram, DStore.run, DStore.step, DStore.fresh, DAct.effect, DStore.val, DStore.set, DStore.empty]
  rw [hs] at hE
  obtain ⟨w, h1, H⟩ := hE
  refine ⟨w, h1, ⟨1, true, 0⟩, ?_, rfl, rfl, ?_⟩
  · rw [H.obj]
    simp [DStore.fresh, DStore.set, DStore.empty]
  · intro h
    have h0 := h (0 : U64) (1 : U64) (by show (0 : U64).toNat < 2 ^ 1; decide) (by show (1 : U64).toNat < 2 ^ 1; decide)
    have hc : (0 : Nat) < DStore.count (((DStore.empty.fresh "x" ⟨1, true, basisMatrix 0⟩).obj "x").elim .empty fun o =>
        DStore.set { DStore.empty.fresh "x" ⟨1, true, basisMatrix 0⟩ with
          obj := Function.update (DStore.empty.fresh "x" ⟨1, true, basisMatrix 0⟩).obj "y" (some o) } "y" 0
          ⟨1, false, fun p => if p.1.toNat = 0 ∧ p.2.toNat = 1 then 1 else basisMatrix 0 p⟩) := by
      simp [DStore.fresh, DStore.set, DStore.empty]
    have e1 := H.vals 0 hc (0, 1) (by simp [CellOf, DStore.fresh, DStore.set, DStore.empty])
    have e2 := H.vals 0 hc (1, 0) (by simp [CellOf, DStore.fresh, DStore.set, DStore.empty])
    dsimp only at h0
    rw [e1, e2] at h0
    simp [DStore.fresh, DStore.set, DStore.empty, basisMatrix] at h0

/-- adding an object to itself doubles it, and the copy made before keeps the old value -/
def doubling : List DCmd := [.new "x" 2, .act "x" (.coherence 1 2 Complex.I), .copy "y" "x", .add "x" 1 "x"]

example : ∀ c ∈ doubling, ¬ c.Shares := by
  intro c hc
  simp only [doubling, List.mem_cons, List.not_mem_nil, or_false] at hc
  rcases hc with rfl | rfl | rfl | rfl <;> exact fun h => h

example : ∃ vs, DValues.run Buildable (fun _ => none) doubling = .finished vs ∧ (vs "x").map (·.flag) = some false ∧
    (vs "x").map (fun v => v.elem (1, 2)) = some (2 * Complex.I) ∧ (vs "x").map (fun v => v.elem (0, 0)) = some 2 ∧
    (vs "y").map (fun v => v.elem (1, 2)) = some Complex.I := by
  refine ⟨_, rfl, ?_⟩
  simp [DVal.plus, basisMatrix, two_mul, one_add_one_eq_two]

example : ∃ s, DStore.empty.run Buildable (sharedProgram ++ [.load "x" "y"]) = .finished s := by
  simp [sharedProgram, DStore.run, DStore.step, DStore.fresh, DAct.effect, DStore.val, DStore.set, DStore.empty]

example : ∃ s, DStore.empty.run Buildable [.new "x" 1, .act "x" (.basis 2)] = .stopped s := by
  simp [DStore.run, DStore.step, DStore.fresh, DAct.effect, DStore.val, DStore.empty]

/-- a true claim: the matrix `diag(1, 3)` is Hermitian -/
example : DValues.Truthful Buildable (fun _ => none)
    [.new "x" 1, .act "x" (.loadMatrix 2 2 (fun p => if p.1 = p.2 then 1 + 2 * p.1.toNat else 0) true)] := by
  refine ⟨fun x a v h => (by cases h), fun vs' _ => ⟨fun x a v h hv => ?_, fun _ _ => trivial⟩⟩
  cases h
  intro _ i j _ _
  dsimp only
  by_cases e : i = j
  · subst e; simp [Complex.conj_ofNat]
  · rw [if_neg e, if_neg (Ne.symm e)]; simp

end Verif.Props
