import Verif.Core.Prog
import Mathlib.Algebra.BigOperators.Group.Finset.Basic
import Mathlib.Algebra.BigOperators.Group.List.Basic
import Mathlib.Data.Fintype.BigOperators

/-!
# Parallel kernels with atomic additions

The kernels of `Verif.Core.Prog` only load and store.  Kokkos also has `Kokkos::atomic_add(&cell, v)`
(/repo/include/scaluq/operator/apply_pauli.hpp:164-165): the cell is read, increased and written in one step that no other
work item can interrupt.  Two atomic additions to the same cell are not a data race; an atomic addition and a plain load or
store of the same cell by different work items is one.
-/

namespace Verif

/-- A work item body with plain loads and stores and atomic additions. -/
inductive AProg (A R : Type) : Type
  | done : AProg A R
  | read : A → (R → AProg A R) → AProg A R
  | write : A → R → AProg A R → AProg A R
  | add : A → R → AProg A R → AProg A R

namespace AProg
variable {A R : Type}

/-- what remains after one access -/
inductive Sub : AProg A R → AProg A R → Prop
  | read (a : A) (k : R → AProg A R) (v : R) : Sub (k v) (.read a k)
  | write (a : A) (v : R) (k : AProg A R) : Sub k (.write a v k)
  | add (a : A) (v : R) (k : AProg A R) : Sub k (.add a v k)

theorem sub_wf : WellFounded (Sub (A := A) (R := R)) := by
  constructor
  intro p
  induction p with
  | done => exact ⟨_, fun q h => by cases h⟩
  | read a k ih => exact ⟨_, fun q h => by cases h; exact ih _⟩
  | write a v k ih => exact ⟨_, fun q h => by cases h; exact ih⟩
  | add a v k ih => exact ⟨_, fun q h => by cases h; exact ih⟩

/-- the next access is a plain load of `a` -/
def Reads (p : AProg A R) (a : A) : Prop := ∃ k, p = .read a k
/-- the next access is a plain store to `a` -/
def Writes (p : AProg A R) (a : A) : Prop := ∃ v k, p = .write a v k
/-- the next access is an atomic addition to `a` -/
def Adds (p : AProg A R) (a : A) : Prop := ∃ v k, p = .add a v k

end AProg

/-- A running kernel with atomic additions. -/
abbrev APool (ι A R : Type) := ι → AProg A R

section
variable {ι A R : Type} [DecidableEq ι] [DecidableEq A] [Add R]

/-- One access of one (arbitrarily chosen) work item. -/
inductive AStep (ok : A → Prop) : APool ι A R × (A → R) → APool ι A R × (A → R) → Prop
  | read (pool : APool ι A R) (m : A → R) (i : ι) (a : A) (k : R → AProg A R) :
      pool i = .read a k → ok a → AStep ok (pool, m) (Function.update pool i (k (m a)), m)
  | write (pool : APool ι A R) (m : A → R) (i : ι) (a : A) (v : R) (k : AProg A R) :
      pool i = .write a v k → ok a → AStep ok (pool, m) (Function.update pool i k, Function.update m a v)
  | add (pool : APool ι A R) (m : A → R) (i : ι) (a : A) (v : R) (k : AProg A R) :
      pool i = .add a v k → ok a → AStep ok (pool, m) (Function.update pool i k, Function.update m a (m a + v))

/-- Some work item is about to touch an address outside the allocation. -/
def AOutOfRange (ok : A → Prop) (c : APool ι A R × (A → R)) : Prop :=
  ∃ i a, ¬ ok a ∧ ((c.1 i).Reads a ∨ (c.1 i).Writes a ∨ (c.1 i).Adds a)

/-- Two different work items are about to touch the same address, not both loading and not both adding atomically. -/
def ARace (c : APool ι A R × (A → R)) : Prop :=
  ∃ i j a, i ≠ j ∧
    (((c.1 i).Writes a ∧ ((c.1 j).Reads a ∨ (c.1 j).Writes a ∨ (c.1 j).Adds a)) ∨ ((c.1 i).Reads a ∧ (c.1 j).Adds a))

/-- All work items have finished. -/
def AFinished (c : APool ι A R × (A → R)) : Prop := ∀ i, c.1 i = .done

/-- Under every schedule the kernel stays in range, never races, and leaves `m'`; and every schedule can be finished. -/
structure ARuns (ok : A → Prop) (pool : APool ι A R) (m m' : A → R) : Prop where
  in_range : ∀ c, Relation.ReflTransGen (AStep ok) (pool, m) c → ¬ AOutOfRange ok c
  no_race : ∀ c, Relation.ReflTransGen (AStep ok) (pool, m) c → ¬ ARace c
  result : ∀ c, Relation.ReflTransGen (AStep ok) (pool, m) c → AFinished c → c.2 = m'
  finishes : ∀ c, Relation.ReflTransGen (AStep ok) (pool, m) c →
    ∃ c', Relation.ReflTransGen (AStep ok) c c' ∧ AFinished c'

/-- No kernel with finitely many work items can run forever. -/
theorem astep_wf [Finite ι] (ok : A → Prop) :
    WellFounded (fun c' c : APool ι A R × (A → R) => AStep ok c c') := by
  classical
  obtain ⟨n, ⟨e⟩⟩ := Finite.exists_equiv_fin ι
  have hwf : WellFounded (Pi.Lex (ι := Fin n) (β := fun _ => AProg A R) (· < ·)
      (fun {_} => AProg.Sub)) :=
    Pi.Lex.wellFounded _ (fun _ => AProg.sub_wf)
  refine Subrelation.wf ?_ (InvImage.wf (fun c : APool ι A R × (A → R) => fun x => c.1 (e.symm x)) hwf)
  have key : ∀ (pool : APool ι A R) (i : ι) (q : AProg A R), AProg.Sub q (pool i) →
      Pi.Lex (ι := Fin n) (β := fun _ => AProg A R) (· < ·) (fun {_} => AProg.Sub)
        (fun x => Function.update pool i q (e.symm x)) (fun x => pool (e.symm x)) := by
    intro pool i q hq
    refine ⟨e i, ?_, ?_⟩
    · intro j hj
      have : e.symm j ≠ i := by rintro rfl; simp at hj
      simp [Function.update_of_ne this]
    · simpa using hq
  intro c' c h
  cases h with
  | read pool m i a k hp ha => exact key pool i _ (by rw [hp]; exact .read a k (m a))
  | write pool m i a v k hp ha => exact key pool i _ (by rw [hp]; exact .write a v k)
  | add pool m i a v k hp ha => exact key pool i _ (by rw [hp]; exact .add a v k)

/-- A configuration that is neither finished nor out of range can take a step. -/
theorem aprogress (ok : A → Prop) (c : APool ι A R × (A → R)) (h : ¬ AOutOfRange ok c) :
    AFinished c ∨ ∃ c', AStep ok c c' := by
  classical
  by_cases hf : AFinished c
  · exact .inl hf
  · right
    obtain ⟨pool, m⟩ := c
    simp only [AFinished, not_forall] at hf
    obtain ⟨i, hi⟩ := hf
    have hok : ∀ a, ((pool i).Reads a ∨ (pool i).Writes a ∨ (pool i).Adds a) → ok a := by
      intro a ha
      by_contra hn
      exact h ⟨i, a, hn, ha⟩
    cases hp : pool i with
    | done => exact absurd hp hi
    | read a k => exact ⟨_, .read pool m i a k hp (hok a (.inl ⟨k, hp⟩))⟩
    | write a v k => exact ⟨_, .write pool m i a v k hp (hok a (.inr (.inl ⟨v, k, hp⟩)))⟩
    | add a v k => exact ⟨_, .add pool m i a v k hp (hok a (.inr (.inr ⟨v, k, hp⟩)))⟩

theorem ARuns.unique {ok : A → Prop} {pool : APool ι A R} {m m₁ m₂ : A → R}
    (h₁ : ARuns ok pool m m₁) (h₂ : ARuns ok pool m m₂) : m₁ = m₂ := by
  obtain ⟨c, hc, hf⟩ := h₁.finishes _ .refl
  rw [← h₁.result c hc hf, ← h₂.result c hc hf]

end

/-! ## work items that only increase cells -/

/-- one increase: atomic or not, the cell, the amount -/
structure Incr (A R : Type) where
  atomic : Bool
  cell : A
  amount : R

/-- a work item that makes the increases of a list; a plain increase is a load followed by a store -/
def AProg.ofIncrs {A R : Type} [Add R] : List (Incr A R) → AProg A R
  | [] => .done
  | ⟨true, a, v⟩ :: l => .add a v (ofIncrs l)
  | ⟨false, a, v⟩ :: l => .read a fun r => .write a (r + v) (ofIncrs l)

section
variable {ι A R : Type} [DecidableEq ι] [DecidableEq A] [AddCommMonoid R]

/-- what the increases of a list add up to at a cell -/
def gain (l : List (Incr A R)) (a : A) : R := (l.map fun o => if o.cell = a then o.amount else 0).sum

theorem gain_nil (a : A) : gain ([] : List (Incr A R)) a = 0 := rfl

theorem gain_cons (o : Incr A R) (l : List (Incr A R)) (a : A) :
    gain (o :: l) a = (if o.cell = a then o.amount else 0) + gain l a := by simp [gain]

theorem gain_append (l l' : List (Incr A R)) (a : A) : gain (l ++ l') a = gain l a + gain l' a := by simp [gain]

/-- Every cell is either increased by at most one work item or only increased atomically. -/
def Separate (ops : ι → List (Incr A R)) : Prop :=
  ∀ i j, i ≠ j → ∀ o ∈ ops i, ∀ o' ∈ ops j, o.cell = o'.cell → o.atomic = true ∧ o'.atomic = true

/-- what is left of a work item: its remaining increases, or a pending store of the first of them -/
def Left (m : A → R) (p : AProg A R) (L : List (Incr A R)) : Prop :=
  p = AProg.ofIncrs L ∨
    ∃ a v l, L = ⟨false, a, v⟩ :: l ∧ p = .write a (m a + v) (AProg.ofIncrs l)

omit [DecidableEq A] in
theorem Left.inv_read {m : A → R} {a : A} {k : R → AProg A R} {L : List (Incr A R)} (h : Left m (.read a k) L) :
    ∃ v l, L = ⟨false, a, v⟩ :: l ∧ k = fun r => .write a (r + v) (AProg.ofIncrs l) := by
  rcases h with h | ⟨_, _, _, -, h⟩
  · rcases L with _ | ⟨⟨_ | _, b, v⟩, l⟩
    · cases h
    · cases h; exact ⟨_, _, rfl, rfl⟩
    · cases h
  · cases h

omit [DecidableEq A] in
theorem Left.inv_write {m : A → R} {a : A} {w : R} {k : AProg A R} {L : List (Incr A R)} (h : Left m (.write a w k) L) :
    ∃ v l, L = ⟨false, a, v⟩ :: l ∧ w = m a + v ∧ k = AProg.ofIncrs l := by
  rcases h with h | ⟨_, v, l, e, h⟩
  · rcases L with _ | ⟨⟨_ | _, b, v⟩, l⟩ <;> cases h
  · cases h; exact ⟨v, l, e, rfl, rfl⟩

omit [DecidableEq A] in
theorem Left.inv_add {m : A → R} {a : A} {w : R} {k : AProg A R} {L : List (Incr A R)} (h : Left m (.add a w k) L) :
    ∃ l, L = ⟨true, a, w⟩ :: l ∧ k = AProg.ofIncrs l := by
  rcases h with h | ⟨_, v, l, e, h⟩
  · rcases L with _ | ⟨⟨_ | _, b, v⟩, l⟩
    · cases h
    · cases h
    · cases h; exact ⟨_, rfl, rfl⟩
  · cases h

omit [DecidableEq A] in
theorem Left.inv_done {m : A → R} {L : List (Incr A R)} (h : Left m .done L) : L = [] := by
  rcases h with h | ⟨_, v, l, e, h⟩
  · rcases L with _ | ⟨⟨_ | _, b, v⟩, l⟩
    · rfl
    · cases h
    · cases h
  · cases h

omit [DecidableEq A] in
theorem Left.next {m : A → R} {p : AProg A R} {L : List (Incr A R)} (h : Left m p L) {a : A}
    (ha : p.Reads a ∨ p.Writes a ∨ p.Adds a) :
    ∃ o ∈ L, o.cell = a ∧ (o.atomic = true ↔ p.Adds a) := by
  rcases ha with ⟨_, rfl⟩ | ⟨_, _, rfl⟩ | ⟨_, _, rfl⟩
  · obtain ⟨v, l, rfl, -⟩ := h.inv_read
    refine ⟨⟨false, a, v⟩, by simp, rfl, ?_⟩
    constructor
    · intro h; cases h
    · rintro ⟨_, _, h⟩; cases h
  · obtain ⟨v, l, rfl, -, -⟩ := h.inv_write
    refine ⟨⟨false, a, v⟩, by simp, rfl, ?_⟩
    constructor
    · intro h; cases h
    · rintro ⟨_, _, h⟩; cases h
  · obtain ⟨l, rfl, -⟩ := h.inv_add
    exact ⟨_, List.mem_cons_self .., rfl, fun _ => ⟨_, _, rfl⟩, fun _ => rfl⟩

variable [Fintype ι]

theorem sum_update_gain (L : ι → List (Incr A R)) (i : ι) (o : Incr A R) (l : List (Incr A R)) (h : L i = o :: l) (a : A) :
    (∑ k, gain (L k) a) = (if o.cell = a then o.amount else 0) + ∑ k, gain (Function.update L i l k) a := by
  classical
  rw [← Finset.add_sum_erase _ _ (Finset.mem_univ i), ← Finset.add_sum_erase (a := i) _ (fun k => gain (Function.update L i l k) a) (Finset.mem_univ i),
    h, gain_cons, Function.update_self, add_assoc]
  congr 2
  apply Finset.sum_congr rfl
  intro k hk
  rw [Function.update_of_ne (Finset.ne_of_mem_erase hk)]

/-- the invariant of all schedules -/
structure AInv (ok : A → Prop) (ops : ι → List (Incr A R)) (m : A → R) (c : APool ι A R × (A → R))
    (L : ι → List (Incr A R)) : Prop where
  sub : ∀ i, ∀ o ∈ L i, o ∈ ops i
  left : ∀ i, Left c.2 (c.1 i) (L i)
  total : ∀ a, c.2 a + ∑ i, gain (L i) a = m a + ∑ i, gain (ops i) a

omit [DecidableEq A] in
theorem Left.keep {m m' : A → R} {p : AProg A R} {L : List (Incr A R)} (h : Left m p L)
    (hm : ∀ o ∈ L, o.atomic = false → m' o.cell = m o.cell) : Left m' p L := by
  rcases h with h | ⟨a, v, l, rfl, rfl⟩
  · exact .inl h
  · refine .inr ⟨a, v, l, rfl, ?_⟩
    rw [hm ⟨false, a, v⟩ (by simp) rfl]

theorem ainv_step {ok : A → Prop} {ops : ι → List (Incr A R)} (hsep : Separate ops) {m : A → R}
    {c c' : APool ι A R × (A → R)} {L : ι → List (Incr A R)} (h : AInv ok ops m c L) (hs : AStep ok c c') :
    ∃ L', AInv ok ops m c' L' := by
  classical
  cases hs with
  | read pool m0 i a k hp ha =>
    refine ⟨L, h.sub, ?_, h.total⟩
    intro j
    by_cases hj : j = i
    · subst hj
      have hl := h.left j
      simp only [hp] at hl
      simp only [Function.update_self]
      obtain ⟨v, l, e, rfl⟩ := hl.inv_read
      exact .inr ⟨a, v, l, e, rfl⟩
    · simpa [Function.update_of_ne hj] using h.left j
  | write pool m0 i a v k hp ha =>
    have hl := h.left i
    simp only [hp] at hl
    obtain ⟨w, l, hL, rfl, rfl⟩ := hl.inv_write
    · have hmem : (⟨false, a, w⟩ : Incr A R) ∈ L i := by rw [hL]; simp
      refine ⟨Function.update L i l, ?_, ?_, ?_⟩
      · intro j o ho
        by_cases hj : j = i
        · subst hj
          rw [Function.update_self] at ho
          exact h.sub j o (by rw [hL]; exact List.mem_cons_of_mem _ ho)
        · rw [Function.update_of_ne hj] at ho
          exact h.sub j o ho
      · intro j
        by_cases hj : j = i
        · subst hj
          simp only [Function.update_self]
          exact .inl rfl
        · simp only [Function.update_of_ne hj]
          refine (h.left j).keep ?_
          intro o ho hat
          rw [Function.update_of_ne]
          intro e
          have := (hsep j i hj o (h.sub j o ho) _ (h.sub i _ hmem) e).1
          rw [hat] at this; cases this
      · intro x
        rw [← h.total x, sum_update_gain L i _ l hL x]
        dsimp only
        by_cases e : x = a
        · subst e; rw [Function.update_self, if_pos rfl, add_assoc]
        · rw [Function.update_of_ne e, if_neg (fun e' => e e'.symm), zero_add]
  | add pool m0 i a v k hp ha =>
    have hl := h.left i
    simp only [hp] at hl
    obtain ⟨l, hL, rfl⟩ := hl.inv_add
    · have hmem : (⟨true, a, v⟩ : Incr A R) ∈ L i := by rw [hL]; simp
      refine ⟨Function.update L i l, ?_, ?_, ?_⟩
      · intro j o ho
        by_cases hj : j = i
        · subst hj
          rw [Function.update_self] at ho
          exact h.sub j o (by rw [hL]; exact List.mem_cons_of_mem _ ho)
        · rw [Function.update_of_ne hj] at ho
          exact h.sub j o ho
      · intro j
        by_cases hj : j = i
        · subst hj
          simp only [Function.update_self]
          exact .inl rfl
        · simp only [Function.update_of_ne hj]
          refine (h.left j).keep ?_
          intro o ho hat
          rw [Function.update_of_ne]
          intro e
          have := (hsep j i hj o (h.sub j o ho) _ (h.sub i _ hmem) e).1
          rw [hat] at this; cases this
      · intro x
        rw [← h.total x, sum_update_gain L i _ l hL x]
        dsimp only
        by_cases e : x = a
        · subst e; rw [Function.update_self, if_pos rfl, add_assoc]
        · rw [Function.update_of_ne e, if_neg (fun e' => e e'.symm), zero_add]

theorem ainv_all {ok : A → Prop} {ops : ι → List (Incr A R)} (hsep : Separate ops) {m : A → R}
    {c : APool ι A R × (A → R)}
    (hc : Relation.ReflTransGen (AStep ok) ((fun i => AProg.ofIncrs (ops i)), m) c) : ∃ L, AInv ok ops m c L := by
  induction hc with
  | refl => exact ⟨ops, fun _ _ h => h, fun i => .inl rfl, fun _ => rfl⟩
  | tail _ hs ih =>
    obtain ⟨L, hL⟩ := ih
    exact ainv_step hsep hL hs

/-- **Schedule independence of increases.**  Work items that only increase cells inside the allocation, such that cells
increased by different work items are only increased atomically, run without races under every schedule, and every cell ends
up increased by the sum of all its increases. -/
theorem aruns_incrs (ok : A → Prop) (ops : ι → List (Incr A R)) (hsep : Separate ops)
    (hok : ∀ i, ∀ o ∈ ops i, ok o.cell) (m m' : A → R) (hm : ∀ a, m' a = m a + ∑ i, gain (ops i) a) :
    ARuns ok (fun i => AProg.ofIncrs (ops i)) m m' := by
  have hrange : ∀ c, Relation.ReflTransGen (AStep ok) ((fun i => AProg.ofIncrs (ops i)), m) c → ¬ AOutOfRange ok c := by
    rintro c hc ⟨i, a, hna, hacc⟩
    obtain ⟨L, hL⟩ := ainv_all hsep hc
    obtain ⟨o, ho, rfl, -⟩ := (hL.left i).next hacc
    exact hna (hok i o (hL.sub i o ho))
  refine ⟨hrange, ?_, ?_, ?_⟩
  · rintro c hc ⟨i, j, a, hij, hacc⟩
    obtain ⟨L, hL⟩ := ainv_all hsep hc
    have hi : (c.1 i).Reads a ∨ (c.1 i).Writes a := by
      rcases hacc with ⟨h, -⟩ | ⟨h, -⟩
      · exact .inr h
      · exact .inl h
    have hj : (c.1 j).Reads a ∨ (c.1 j).Writes a ∨ (c.1 j).Adds a := by
      rcases hacc with ⟨-, h⟩ | ⟨-, h⟩
      · exact h
      · exact .inr (.inr h)
    obtain ⟨o, ho, e, hat⟩ := (hL.left i).next (hi.elim .inl (fun h => .inr (.inl h)))
    obtain ⟨o', ho', e', -⟩ := (hL.left j).next hj
    have := hat.1 (hsep i j hij o (hL.sub i o ho) o' (hL.sub j o' ho') (e.trans e'.symm)).1
    obtain ⟨v, k, h1⟩ := this
    rcases hi with ⟨k', h2⟩ | ⟨v', k', h2⟩ <;> rw [h1] at h2 <;> cases h2
  · intro c hc hf
    obtain ⟨L, hL⟩ := ainv_all hsep hc
    funext a
    rw [hm a, ← hL.total a]
    have : ∀ i, L i = [] := by
      intro i
      have hl := hL.left i
      rw [hf i] at hl
      exact hl.inv_done
    simp [this, gain_nil]
  · intro c hc
    induction c using (astep_wf (ι := ι) (A := A) (R := R) ok).induction with
    | _ c ih =>
      rcases aprogress ok c (hrange c hc) with hf | ⟨c', hs⟩
      · exact ⟨c, .refl, hf⟩
      · obtain ⟨c'', h1, h2⟩ := ih c' hs (hc.tail hs)
        exact ⟨c'', .head hs h1, h2⟩

omit [Fintype ι] in
/-- a work item can be run alone up to any of its increases -/
theorem arun_to {ok : A → Prop} (i : ι) (l : List (Incr A R)) (rest : List (Incr A R)) (hok : ∀ o ∈ l, ok o.cell) :
    ∀ (pool : APool ι A R) (m : A → R), pool i = AProg.ofIncrs (l ++ rest) →
      ∃ m', Relation.ReflTransGen (AStep ok) (pool, m) (Function.update pool i (AProg.ofIncrs rest), m') := by
  induction l with
  | nil =>
    intro pool m hp
    refine ⟨m, ?_⟩
    rw [show AProg.ofIncrs rest = pool i from hp.symm, Function.update_eq_self]
  | cons o l ih =>
    intro pool m hp
    obtain ⟨_ | _, a, v⟩ := o
    · have ha : ok a := hok _ (List.mem_cons_self ..)
      obtain ⟨m', h'⟩ := ih (fun o ho => hok o (List.mem_cons_of_mem _ ho))
        (Function.update pool i (AProg.ofIncrs (l ++ rest))) (Function.update m a (m a + v)) (by simp)
      refine ⟨m', ?_⟩
      rw [Function.update_idem] at h'
      refine .head (.read pool m i a _ hp ha) (.head ?_ h')
      have := AStep.write (ok := ok) (Function.update pool i (.write a (m a + v) (AProg.ofIncrs (l ++ rest)))) m i a
        (m a + v) (AProg.ofIncrs (l ++ rest)) (by simp) ha
      rwa [Function.update_idem] at this
    · have ha : ok a := hok _ (List.mem_cons_self ..)
      obtain ⟨m', h'⟩ := ih (fun o ho => hok o (List.mem_cons_of_mem _ ho))
        (Function.update pool i (AProg.ofIncrs (l ++ rest))) (Function.update m a (m a + v)) (by simp)
      refine ⟨m', ?_⟩
      rw [Function.update_idem] at h'
      exact .head (.add pool m i a v _ hp ha) h'

omit [Fintype ι] in
/-- conversely, a plain and an atomic increase of one cell by different work items make a race possible -/
theorem race_of_mixed {ok : A → Prop} (ops : ι → List (Incr A R)) (hok : ∀ i, ∀ o ∈ ops i, ok o.cell)
    {i j : ι} (hij : i ≠ j) {o o' : Incr A R} (ho : o ∈ ops i) (ho' : o' ∈ ops j) (hc : o.cell = o'.cell)
    (hp : o.atomic = false) (ha : o'.atomic = true) (m : A → R) :
    ∃ c, Relation.ReflTransGen (AStep ok) ((fun i => AProg.ofIncrs (ops i)), m) c ∧ ARace c := by
  obtain ⟨l1, l2, e1⟩ := List.append_of_mem ho
  obtain ⟨k1, k2, e2⟩ := List.append_of_mem ho'
  obtain ⟨m1, h1⟩ := arun_to (ok := ok) i l1 (o :: l2) (fun x hx => hok i x (by rw [e1]; simp [hx]))
    (fun i => AProg.ofIncrs (ops i)) m (by rw [e1])
  obtain ⟨m2, h2⟩ := arun_to (ok := ok) j k1 (o' :: k2) (fun x hx => hok j x (by rw [e2]; simp [hx]))
    (Function.update (fun i => AProg.ofIncrs (ops i)) i (AProg.ofIncrs (o :: l2))) m1
    (by rw [Function.update_of_ne hij.symm, e2])
  refine ⟨_, h1.trans h2, i, j, o.cell, hij, Or.inr ⟨?_, ?_⟩⟩
  · simp only [Function.update_of_ne hij, Function.update_self]
    obtain ⟨_, a, v⟩ := o
    cases hp
    exact ⟨_, rfl⟩
  · simp only [Function.update_self, hc]
    obtain ⟨_, a, v⟩ := o'
    cases ha
    exact ⟨_, _, rfl⟩

end
end Verif
