import Verif.Core.Slots

/-!
# A family of kernels on separate parts of the memory

Work item `i` runs item `it i` of kernel `part i`; kernel `k` works on the cells `f k a`.
-/

namespace Verif
open Relation

section
variable {κ ι₀ ι A₀ A R : Type} [DecidableEq κ] [DecidableEq ι₀] [DecidableEq ι] [DecidableEq A₀] [DecidableEq A]

/-- the launch of all kernels together -/
def familyPool (part : ι → κ) (it : ι → ι₀) (f : κ → A₀ → A) (pool : κ → Pool ι₀ A₀ R) : Pool ι A R :=
  fun i => (pool (part i) (it i)).mapAddr (f (part i))

/-- what a configuration of the whole launch looks like to the kernels -/
def FamilyProjects (ok₀ : A₀ → Prop) (part : ι → κ) (it : ι → ι₀) (f : κ → A₀ → A) (pool : κ → Pool ι₀ A₀ R) (m : A → R)
    (c : Pool ι A R × (A → R)) : Prop :=
  ∃ p : κ → Pool ι₀ A₀ R,
    (∀ i, c.1 i = (p (part i) (it i)).mapAddr (f (part i))) ∧
    (∀ k, ReflTransGen (Step ok₀) (pool k, fun a => m (f k a)) (p k, fun a => c.2 (f k a))) ∧
    (∀ b, (∀ k a, b ≠ f k a) → c.2 b = m b)

variable {ok₀ : A₀ → Prop} {ok : A → Prop} {part : ι → κ} {it : ι → ι₀} {f : κ → A₀ → A} {pool : κ → Pool ι₀ A₀ R} {m : A → R}

theorem familyProjects_reach (hi : ∀ i j, part i = part j → it i = it j → i = j) (hf : ∀ k k' a a', f k a = f k' a' → k = k' ∧ a = a')
    (hok : ∀ i a, ok (f (part i) a) → ok₀ a) {c} (hc : ReflTransGen (Step ok) (familyPool part it f pool, m) c) :
    FamilyProjects ok₀ part it f pool m c := by
  classical
  induction hc with
  | refl => exact ⟨pool, fun i => rfl, fun k => .refl, fun b _ => rfl⟩
  | tail _ hs ih =>
    obtain ⟨p, h1, h2, h3⟩ := ih
    have upd : ∀ (i : ι) (q : Prog A₀ R Unit), ∀ (pl : Pool ι A R), (∀ j, pl j = (p (part j) (it j)).mapAddr (f (part j))) → ∀ j,
        Function.update pl i (q.mapAddr (f (part i))) j =
          ((Function.update p (part i) (Function.update (p (part i)) (it i) q)) (part j) (it j)).mapAddr (f (part j)) := by
      intro i q pl hpl j
      by_cases hj : j = i
      · subst hj; simp
      · rw [Function.update_of_ne hj, hpl j]
        by_cases hp : part j = part i
        · have hij : it j ≠ it i := fun e => hj (hi _ _ hp e)
          rw [hp, Function.update_self, Function.update_of_ne hij]
        · rw [Function.update_of_ne hp]
    cases hs with
    | read pl mem i a k hp ha =>
      dsimp only at h1 h2 h3 ⊢
      have e := h1 i
      rw [hp] at e
      obtain ⟨a', k', hq, rfl, rfl⟩ := Prog.mapAddr_read e.symm
      refine ⟨_, upd i (k' (mem (f (part i) a'))) pl h1, ?_, h3⟩
      intro b
      by_cases hb : b = part i
      · subst hb
        rw [Function.update_self]
        exact (h2 (part i)).tail (Step.read _ _ (it i) a' k' hq (hok i a' ha))
      · rw [Function.update_of_ne hb]; exact h2 b
    | write pl mem i a v k hp ha =>
      dsimp only at h1 h2 h3 ⊢
      have e := h1 i
      rw [hp] at e
      obtain ⟨a', k', hq, rfl, rfl⟩ := Prog.mapAddr_write e.symm
      refine ⟨_, upd i k' pl h1, ?_, ?_⟩
      · intro b
        by_cases hb : b = part i
        · subst hb
          rw [Function.update_self]
          have := (h2 (part i)).tail (Step.write _ _ (it i) a' v k' hq (hok i a' ha))
          convert this using 2
          funext x
          by_cases hx : x = a'
          · subst hx; simp
          · dsimp only
            rw [Function.update_of_ne hx, Function.update_of_ne (fun h => hx (hf _ _ _ _ h).2)]
        · rw [Function.update_of_ne hb]
          convert h2 b using 2
          funext x
          dsimp only
          rw [Function.update_of_ne]
          intro h
          exact hb (hf _ _ _ _ h).1
      · intro b hb
        dsimp only
        rw [Function.update_of_ne (hb _ _)]
        exact h3 b hb

/-- **Family theorem**: if every kernel runs well on its own part then the launch runs well. -/
theorem family_runs [Finite ι] (hi : ∀ i j, part i = part j → it i = it j → i = j) (hs : ∀ k x, ∃ i, part i = k ∧ it i = x)
    (hf : ∀ k k' a a', f k a = f k' a' → k = k' ∧ a = a') (hok : ∀ k a, ok (f k a) ↔ ok₀ a) {m' : A → R}
    (h : ∀ k, Runs ok₀ (pool k) (fun a => m (f k a)) (fun a => m' (f k a))) (hrest : ∀ b, (∀ k a, b ≠ f k a) → m' b = m b) :
    Runs ok (familyPool part it f pool) m m' := by
  classical
  have hok' : ∀ i a, ok (f (part i) a) → ok₀ a := fun i a => (hok _ _).1
  have hrange : ∀ c, ReflTransGen (Step ok) (familyPool part it f pool, m) c → ¬ OutOfRange ok c := by
    rintro c hc ⟨i, a, hna, hacc⟩
    obtain ⟨p, h1, h2, h3⟩ := familyProjects_reach hi hf hok' hc
    have e := h1 i
    rcases hacc with ⟨k, hk⟩ | ⟨v, k, hk⟩
    · rw [hk] at e
      obtain ⟨a', k', hp, rfl, -⟩ := Prog.mapAddr_read e.symm
      exact (h (part i)).in_range _ (h2 _) ⟨it i, a', fun hin => hna ((hok _ _).2 hin), Or.inl ⟨_, hp⟩⟩
    · rw [hk] at e
      obtain ⟨a', k', hp, rfl, -⟩ := Prog.mapAddr_write e.symm
      exact (h (part i)).in_range _ (h2 _) ⟨it i, a', fun hin => hna ((hok _ _).2 hin), Or.inr ⟨_, _, hp⟩⟩
  refine ⟨hrange, ?_, ?_, ?_⟩
  · rintro c hc ⟨i, j, a, hne, ⟨v, k, hk⟩, hacc⟩
    obtain ⟨p, h1, h2, h3⟩ := familyProjects_reach hi hf hok' hc
    have e := h1 i
    have e' := h1 j
    rw [hk] at e
    obtain ⟨x, k1, hp, rfl, -⟩ := Prog.mapAddr_write e.symm
    have hij : ∀ {y : A₀}, f (part i) x = f (part j) y → part i = part j ∧ x = y ∧ it i ≠ it j := fun {y} hxy =>
      ⟨(hf _ _ _ _ hxy).1, (hf _ _ _ _ hxy).2, fun e => hne (hi _ _ (hf _ _ _ _ hxy).1 e)⟩
    rcases hacc with ⟨k2, hk2⟩ | ⟨v2, k2, hk2⟩
    · rw [hk2] at e'
      obtain ⟨y, k3, hp', hxy, -⟩ := Prog.mapAddr_read e'.symm
      obtain ⟨hpart, rfl, hn⟩ := hij hxy
      rw [← hpart] at hp'
      exact (h (part i)).no_race _ (h2 _) ⟨it i, it j, x, hn, ⟨v, k1, hp⟩, Or.inl ⟨_, hp'⟩⟩
    · rw [hk2] at e'
      obtain ⟨y, k3, hp', hxy, -⟩ := Prog.mapAddr_write e'.symm
      obtain ⟨hpart, rfl, hn⟩ := hij hxy
      rw [← hpart] at hp'
      exact (h (part i)).no_race _ (h2 _) ⟨it i, it j, x, hn, ⟨v, k1, hp⟩, Or.inr ⟨_, _, hp'⟩⟩
  · intro c hc hfin
    obtain ⟨p, h1, h2, h3⟩ := familyProjects_reach hi hf hok' hc
    funext b
    by_cases hb : ∃ k a, b = f k a
    · obtain ⟨k, a, rfl⟩ := hb
      have := (h k).result _ (h2 k) (fun x => by
        obtain ⟨i, rfl, rfl⟩ := hs k x
        have e := h1 i
        rw [hfin i] at e
        exact Prog.mapAddr_pure e.symm)
      exact congrFun this a
    · push Not at hb
      rw [h3 b hb, hrest b hb]
  · intro c hc
    induction c using (step_wf (ι := ι) (A := A) (R := R) ok).induction with
    | _ c ih =>
      rcases progress ok c (hrange c hc) with hf | ⟨c', hs⟩
      · exact ⟨c, .refl, hf⟩
      · obtain ⟨c'', h1, h2⟩ := ih c' hs (hc.tail hs)
        exact ⟨c'', .head hs h1, h2⟩

end
end Verif
