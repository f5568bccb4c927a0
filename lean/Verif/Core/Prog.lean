import Mathlib.Data.DFinsupp.WellFounded
import Mathlib.Logic.Relation
import Mathlib.Logic.Function.Basic

/-!
# Parallel kernels

Kokkos `parallel_for(RangePolicy(0, N), body)` runs `body(it)` for every `it < N` with no order guarantee
(all kernels in /repo/src/gate/update_ops_standard.cpp, update_ops_matrix.cpp,
/repo/include/scaluq/operator/apply_pauli.hpp have this form).  A body is modelled as a program that loads from
and stores to memory cells; an execution of the kernel is *any* interleaving of the single loads and stores of
all work items.  Memory cells have addresses `A` and hold values `R`; `ok a` says that address `a` is inside the
allocation.  Touching an address that is not `ok` is undefined behaviour, and so is a data race.
-/

namespace Verif

/-- A work item body: a finite tree of loads and stores (local computation is in the continuation). -/
inductive Prog (A R : Type) (α : Type) : Type
  | pure : α → Prog A R α
  | read : A → (R → Prog A R α) → Prog A R α
  | write : A → R → Prog A R α → Prog A R α

namespace Prog

variable {A R α β : Type}

/-- Sequencing inside one work item. -/
def bind : Prog A R α → (α → Prog A R β) → Prog A R β
  | .pure a, f => f a
  | .read a k, f => .read a (fun v => bind (k v) f)
  | .write a v k, f => .write a v (bind k f)

instance : Monad (Prog A R) where
  pure := Prog.pure
  bind := Prog.bind

/-- load: `state.at_unsafe(i)` used as a value -/
def load (a : A) : Prog A R R := .read a .pure
/-- store: `state.at_unsafe(i) = v` -/
def store (a : A) (v : R) : Prog A R Unit := .write a v (.pure ())

/-- Every load and store of the program is at an address in `F`, whatever values are read. -/
def Within (F : A → Prop) : Prog A R α → Prop
  | .pure _ => True
  | .read a k => F a ∧ ∀ v, Within F (k v)
  | .write a _ k => F a ∧ Within F k

/-- Effect on memory of running the program alone. -/
def exec [DecidableEq A] : Prog A R α → (A → R) → (A → R)
  | .pure _, m => m
  | .read a k, m => exec (k (m a)) m
  | .write a v k, m => exec k (Function.update m a v)

/-- Immediate continuation relation: `Sub q p` if `q` is what remains of `p` after one access. -/
inductive Sub : Prog A R α → Prog A R α → Prop
  | read (a : A) (k : R → Prog A R α) (v : R) : Sub (k v) (.read a k)
  | write (a : A) (v : R) (k : Prog A R α) : Sub k (.write a v k)

theorem sub_wf : WellFounded (Sub (A := A) (R := R) (α := α)) := by
  constructor
  intro p
  induction p with
  | pure a => exact ⟨_, fun q h => by cases h⟩
  | read a k ih => exact ⟨_, fun q h => by cases h; exact ih _⟩
  | write a v k ih => exact ⟨_, fun q h => by cases h; exact ih⟩

theorem within_mono {F G : A → Prop} (h : ∀ a, F a → G a) :
    ∀ {p : Prog A R α}, p.Within F → p.Within G
  | .pure _, _ => trivial
  | .read _ _, hp => ⟨h _ hp.1, fun v => within_mono h (hp.2 v)⟩
  | .write _ _ _, hp => ⟨h _ hp.1, within_mono h hp.2⟩

variable [DecidableEq A]

theorem exec_outside {F : A → Prop} : ∀ {p : Prog A R α} (m : A → R), p.Within F →
    ∀ a, ¬ F a → p.exec m a = m a
  | .pure _, _, _, _, _ => rfl
  | .read a k, m, h, b, hb => by
      simpa [exec] using exec_outside (p := k (m a)) m (h.2 _) b hb
  | .write a v k, m, h, b, hb => by
      have : b ≠ a := fun e => hb (e ▸ h.1)
      simpa [exec, Function.update_of_ne this] using
        exec_outside (p := k) (Function.update m a v) h.2 b hb

theorem exec_congr {F : A → Prop} : ∀ {p : Prog A R α} (m m' : A → R), p.Within F →
    (∀ a, F a → m a = m' a) → ∀ a, F a → p.exec m a = p.exec m' a
  | .pure _, _, _, _, he, a, ha => he a ha
  | .read a k, m, m', h, he, b, hb => by
      simp only [exec, ← he a h.1]
      exact exec_congr m m' (h.2 _) he b hb
  | .write a v k, m, m', h, he, b, hb => by
      simp only [exec]
      refine exec_congr _ _ h.2 ?_ b hb
      intro c hc
      by_cases e : c = a
      · subst e; simp
      · simp [Function.update_of_ne e, he c hc]

end Prog

/-! ## Interleaving semantics -/

/-- A running kernel: what remains of every work item. -/
abbrev Pool (ι A R : Type) := ι → Prog A R Unit

section Par
variable {ι A R : Type} [DecidableEq ι] [DecidableEq A]

/-- One load or store of one (arbitrarily chosen) work item. -/
inductive Step (ok : A → Prop) : Pool ι A R × (A → R) → Pool ι A R × (A → R) → Prop
  | read (pool : Pool ι A R) (m : A → R) (i : ι) (a : A) (k : R → Prog A R Unit) :
      pool i = .read a k → ok a → Step ok (pool, m) (Function.update pool i (k (m a)), m)
  | write (pool : Pool ι A R) (m : A → R) (i : ι) (a : A) (v : R) (k : Prog A R Unit) :
      pool i = .write a v k → ok a →
      Step ok (pool, m) (Function.update pool i k, Function.update m a v)

/-- Some work item is about to touch an address outside the allocation. -/
def OutOfRange (ok : A → Prop) (c : Pool ι A R × (A → R)) : Prop :=
  ∃ i a, ¬ ok a ∧ ((∃ k, c.1 i = .read a k) ∨ (∃ v k, c.1 i = .write a v k))

/-- Two different work items are about to touch the same address, at least one of them writing. -/
def Race (c : Pool ι A R × (A → R)) : Prop :=
  ∃ i j a, i ≠ j ∧ (∃ v k, c.1 i = .write a v k) ∧
    ((∃ k, c.1 j = .read a k) ∨ (∃ v k, c.1 j = .write a v k))

/-- All work items have finished. -/
def Finished (c : Pool ι A R × (A → R)) : Prop := ∀ i, c.1 i = .pure ()

/-- `Runs ok pool m m'`: under every schedule, the kernel started on memory `m` never touches memory out of
range, never races, and, when it has finished, the memory is `m'`; and some schedule finishes. -/
structure Runs (ok : A → Prop) (pool : Pool ι A R) (m m' : A → R) : Prop where
  in_range : ∀ c, Relation.ReflTransGen (Step ok) (pool, m) c → ¬ OutOfRange ok c
  no_race : ∀ c, Relation.ReflTransGen (Step ok) (pool, m) c → ¬ Race c
  result : ∀ c, Relation.ReflTransGen (Step ok) (pool, m) c → Finished c → c.2 = m'
  finishes : ∀ c, Relation.ReflTransGen (Step ok) (pool, m) c →
    ∃ c', Relation.ReflTransGen (Step ok) c c' ∧ Finished c'

/-- No kernel with finitely many work items can run forever. -/
theorem step_wf [Finite ι] (ok : A → Prop) :
    WellFounded (fun c' c : Pool ι A R × (A → R) => Step ok c c') := by
  classical
  obtain ⟨n, ⟨e⟩⟩ := Finite.exists_equiv_fin ι
  have hwf : WellFounded (Pi.Lex (ι := Fin n) (β := fun _ => Prog A R Unit) (· < ·)
      (fun {_} => Prog.Sub)) :=
    Pi.Lex.wellFounded _ (fun _ => Prog.sub_wf)
  refine Subrelation.wf ?_ (InvImage.wf (fun c : Pool ι A R × (A → R) => fun x => c.1 (e.symm x)) hwf)
  intro c' c h
  cases h with
  | read pool m i a k hp ha =>
    refine ⟨e i, ?_, ?_⟩
    · intro j hj
      have : e.symm j ≠ i := by rintro rfl; simp at hj
      simp [Function.update_of_ne this]
    · simp only [Equiv.symm_apply_apply, Function.update_self, hp]
      exact .read a k (m a)
  | write pool m i a v k hp ha =>
    refine ⟨e i, ?_, ?_⟩
    · intro j hj
      have : e.symm j ≠ i := by rintro rfl; simp at hj
      simp [Function.update_of_ne this]
    · simp only [Equiv.symm_apply_apply, Function.update_self, hp]
      exact .write a v k

/-- A configuration that is neither finished nor out of range can take a step. -/
theorem progress (ok : A → Prop) (c : Pool ι A R × (A → R)) (h : ¬ OutOfRange ok c) :
    Finished c ∨ ∃ c', Step ok c c' := by
  classical
  by_cases hf : Finished c
  · exact .inl hf
  · right
    obtain ⟨pool, m⟩ := c
    simp only [Finished, not_forall] at hf
    obtain ⟨i, hi⟩ := hf
    cases hp : pool i with
    | pure a => exact absurd hp hi
    | read a k =>
      have : ok a := by
        by_contra hn; exact h ⟨i, a, hn, .inl ⟨k, hp⟩⟩
      exact ⟨_, .read pool m i a k hp this⟩
    | write a v k =>
      have : ok a := by
        by_contra hn; exact h ⟨i, a, hn, .inr ⟨v, k, hp⟩⟩
      exact ⟨_, .write pool m i a v k hp this⟩

/-- The invariant behind schedule independence. -/
theorem interleave_invariant (ok : A → Prop) (pool : Pool ι A R) (m : A → R) (F : ι → A → Prop)
    (hdisj : ∀ i j a, F i a → F j a → i = j)
    (hwithin : ∀ i, (pool i).Within (F i)) (c : Pool ι A R × (A → R))
    (hc : Relation.ReflTransGen (Step ok) (pool, m) c) :
    (∀ i, (c.1 i).Within (F i)) ∧
    (∀ i a, F i a → (c.1 i).exec c.2 a = (pool i).exec m a) ∧
    (∀ a, (∀ i, ¬ F i a) → c.2 a = m a) := by
  induction hc with
  | refl => exact ⟨hwithin, fun _ _ _ => rfl, fun _ _ => rfl⟩
  | tail _ hstep ih =>
    obtain ⟨ihw, ihe, ihm⟩ := ih
    cases hstep with
    | read pool' m' i a k hp ha =>
      have hwi := ihw i
      simp only [hp] at hwi
      refine ⟨?_, ?_, ihm⟩
      · intro j
        by_cases hj : j = i
        · subst hj; simpa using hwi.2 _
        · simpa [Function.update_of_ne hj] using ihw j
      · intro j b hb
        by_cases hj : j = i
        · subst hj
          rw [← ihe j b hb]
          simp [hp, Prog.exec]
        · simpa [Function.update_of_ne hj] using ihe j b hb
    | write pool' m' i a v k hp ha =>
      have hwi := ihw i
      simp only [hp] at hwi
      refine ⟨?_, ?_, ?_⟩
      · intro j
        by_cases hj : j = i
        · subst hj; simpa using hwi.2
        · simpa [Function.update_of_ne hj] using ihw j
      · intro j b hb
        by_cases hj : j = i
        · subst hj
          rw [← ihe j b hb]
          simp [hp, Prog.exec]
        · simp only [Function.update_of_ne hj]
          rw [← ihe j b hb]
          refine Prog.exec_congr _ _ (ihw j) ?_ b hb
          intro c hcj
          have : c ≠ a := by rintro rfl; exact hj (hdisj _ _ _ hcj hwi.1)
          simp [Function.update_of_ne this]
      · intro b hb
        have : b ≠ a := by rintro rfl; exact hb i hwi.1
        simpa [Function.update_of_ne this] using ihm b hb

/-- **Schedule independence.**  If work item `i` only touches addresses in `F i`, all inside the allocation, and
the footprints `F i` are pairwise disjoint, then every schedule is free of undefined behaviour and ends in the
memory in which each footprint holds what its own work item alone would have left there. -/
theorem runs_of_disjoint [Finite ι] (ok : A → Prop) (pool : Pool ι A R) (m m' : A → R)
    (F : ι → A → Prop)
    (hdisj : ∀ i j a, F i a → F j a → i = j)
    (hok : ∀ i a, F i a → ok a)
    (hwithin : ∀ i, (pool i).Within (F i))
    (hin : ∀ i a, F i a → m' a = (pool i).exec m a)
    (hout : ∀ a, (∀ i, ¬ F i a) → m' a = m a) :
    Runs ok pool m m' := by
  have hrange : ∀ c, Relation.ReflTransGen (Step ok) (pool, m) c → ¬ OutOfRange ok c := by
    rintro c hc ⟨i, a, hna, hacc⟩
    obtain ⟨hw, -, -⟩ := interleave_invariant ok pool m F hdisj hwithin c hc
    have hwi := hw i
    rcases hacc with ⟨k, hk⟩ | ⟨v, k, hk⟩ <;> rw [hk] at hwi <;> exact hna (hok i a hwi.1)
  refine ⟨hrange, ?_, ?_, ?_⟩
  · rintro c hc ⟨i, j, a, hij, ⟨v, k, hk⟩, hacc⟩
    obtain ⟨hw, -, -⟩ := interleave_invariant ok pool m F hdisj hwithin c hc
    have hwi := hw i
    have hwj := hw j
    rw [hk] at hwi
    rcases hacc with ⟨k', hk'⟩ | ⟨v', k', hk'⟩ <;> rw [hk'] at hwj <;>
      exact hij (hdisj i j a hwi.1 hwj.1)
  · intro c hc hfin
    obtain ⟨-, he, hm⟩ := interleave_invariant ok pool m F hdisj hwithin c hc
    funext a
    by_cases h : ∃ i, F i a
    · obtain ⟨i, hi⟩ := h
      have := he i a hi
      rw [hfin i] at this
      rw [hin i a hi, ← this]; rfl
    · have h' : ∀ i, ¬ F i a := fun i hi => h ⟨i, hi⟩
      rw [hm a h', hout a h']
  · intro c hc
    induction c using (step_wf (ι := ι) (A := A) (R := R) ok).induction with
    | _ c ih =>
      rcases progress ok c (hrange c hc) with hf | ⟨c', hs⟩
      · exact ⟨c, .refl, hf⟩
      · obtain ⟨c'', h1, h2⟩ := ih c' hs (hc.tail hs)
        exact ⟨c'', .head hs h1, h2⟩

/-- The result of a kernel is unique. -/
theorem Runs.unique {ok : A → Prop} {pool : Pool ι A R} {m m₁ m₂ : A → R}
    (h₁ : Runs ok pool m m₁) (h₂ : Runs ok pool m m₂) : m₁ = m₂ := by
  obtain ⟨c, hc, hf⟩ := h₁.finishes _ .refl
  rw [← h₁.result c hc hf, ← h₂.result c hc hf]

end Par
end Verif
