import Verif.Core.Prog

/-! # Kernels whose work items also read memory that nobody writes -/

namespace Verif
namespace Prog
variable {A R α β : Type}

/-- every store is in `F`, every load is in `F` or in `S` -/
def Within2 (F S : A → Prop) : Prog A R α → Prop
  | .pure _ => True
  | .read a k => (F a ∨ S a) ∧ ∀ v, Within2 F S (k v)
  | .write a _ k => F a ∧ Within2 F S k

theorem within2_bind {F S : A → Prop} {p : Prog A R α} {f : α → Prog A R β}
    (hp : p.Within2 F S) (hf : ∀ a, (f a).Within2 F S) : (p >>= f).Within2 F S := by
  induction p with
  | pure a => exact hf a
  | read a k ih => exact ⟨hp.1, fun v => ih v (hp.2 v)⟩
  | write a v k ih => exact ⟨hp.1, ih hp.2⟩

variable [DecidableEq A]

theorem exec_congr2 {F S : A → Prop} : ∀ {p : Prog A R α} (m m' : A → R), p.Within2 F S →
    (∀ a, F a ∨ S a → m a = m' a) → ∀ a, F a → p.exec m a = p.exec m' a
  | .pure _, _, _, _, h, a, ha => h a (.inl ha)
  | .read b k, m, m', hw, h, a, ha => by
    simp only [exec]
    rw [h b hw.1]
    exact exec_congr2 m m' (hw.2 _) h a ha
  | .write b v k, m, m', hw, h, a, ha => by
    simp only [exec]
    refine exec_congr2 _ _ hw.2 ?_ a ha
    intro c hc
    by_cases e : c = b
    · subst e; simp
    · simp [Function.update_of_ne e, h c hc]

end Prog

section Par
variable {ι A R : Type} [DecidableEq ι] [DecidableEq A]

theorem interleave_invariant2 (ok : A → Prop) (pool : Pool ι A R) (m : A → R) (F : ι → A → Prop) (S : A → Prop)
    (hdisj : ∀ i j a, F i a → F j a → i = j) (hS : ∀ i a, F i a → ¬ S a)
    (hwithin : ∀ i, (pool i).Within2 (F i) S) (c : Pool ι A R × (A → R))
    (hc : Relation.ReflTransGen (Step ok) (pool, m) c) :
    (∀ i, (c.1 i).Within2 (F i) S) ∧
    (∀ i a, F i a → (c.1 i).exec c.2 a = (pool i).exec m a) ∧
    (∀ a, (∀ i, ¬ F i a) → c.2 a = m a) := by
  induction hc with
  | refl => exact ⟨hwithin, fun _ _ _ => rfl, fun _ _ => rfl⟩
  | tail _ hstep ih =>
    obtain ⟨ihw, ihe, ihm⟩ := ih
    cases hstep with
    | read pool' m' i a k hp ha =>
      have hwi := ihw i
      simp only [hp] at hwi
      refine ⟨?_, ?_, ihm⟩
      · intro j
        by_cases hj : j = i
        · subst hj; simpa using hwi.2 _
        · simpa [Function.update_of_ne hj] using ihw j
      · intro j b hb
        by_cases hj : j = i
        · subst hj
          rw [← ihe j b hb]
          simp [hp, Prog.exec]
        · simpa [Function.update_of_ne hj] using ihe j b hb
    | write pool' m' i a v k hp ha =>
      have hwi := ihw i
      simp only [hp] at hwi
      refine ⟨?_, ?_, ?_⟩
      · intro j
        by_cases hj : j = i
        · subst hj; simpa using hwi.2
        · simpa [Function.update_of_ne hj] using ihw j
      · intro j b hb
        by_cases hj : j = i
        · subst hj
          rw [← ihe j b hb]
          simp [hp, Prog.exec]
        · simp only [Function.update_of_ne hj]
          rw [← ihe j b hb]
          refine Prog.exec_congr2 _ _ (ihw j) ?_ b hb
          intro c hcj
          have : c ≠ a := by
            rintro rfl
            rcases hcj with hcj | hcj
            · exact hj (hdisj _ _ _ hcj hwi.1)
            · exact hS _ _ hwi.1 hcj
          simp [Function.update_of_ne this]
      · intro b hb
        have : b ≠ a := by rintro rfl; exact hb i hwi.1
        simpa [Function.update_of_ne this] using ihm b hb

/-- **Schedule independence with shared reads.**  Work item `i` stores only to `F i`, loads only from `F i` and
from `S`; the `F i` are disjoint from each other and from `S`. -/
theorem runs_of_shared [Finite ι] (ok : A → Prop) (pool : Pool ι A R) (m m' : A → R)
    (F : ι → A → Prop) (S : A → Prop)
    (hdisj : ∀ i j a, F i a → F j a → i = j) (hS : ∀ i a, F i a → ¬ S a)
    (hok : ∀ i a, F i a → ok a) (hokS : ∀ a, S a → ok a)
    (hwithin : ∀ i, (pool i).Within2 (F i) S)
    (hin : ∀ i a, F i a → m' a = (pool i).exec m a)
    (hout : ∀ a, (∀ i, ¬ F i a) → m' a = m a) :
    Runs ok pool m m' := by
  have hrange : ∀ c, Relation.ReflTransGen (Step ok) (pool, m) c → ¬ OutOfRange ok c := by
    rintro c hc ⟨i, a, hna, hacc⟩
    obtain ⟨hw, -, -⟩ := interleave_invariant2 ok pool m F S hdisj hS hwithin c hc
    have hwi := hw i
    rcases hacc with ⟨k, hk⟩ | ⟨v, k, hk⟩ <;> rw [hk] at hwi
    · rcases hwi.1 with h | h
      · exact hna (hok i a h)
      · exact hna (hokS a h)
    · exact hna (hok i a hwi.1)
  refine ⟨hrange, ?_, ?_, ?_⟩
  · rintro c hc ⟨i, j, a, hij, ⟨v, k, hk⟩, hacc⟩
    obtain ⟨hw, -, -⟩ := interleave_invariant2 ok pool m F S hdisj hS hwithin c hc
    have hwi := hw i
    have hwj := hw j
    rw [hk] at hwi
    rcases hacc with ⟨k', hk'⟩ | ⟨v', k', hk'⟩ <;> rw [hk'] at hwj
    · rcases hwj.1 with h | h
      · exact hij (hdisj i j a hwi.1 h)
      · exact hS i a hwi.1 h
    · exact hij (hdisj i j a hwi.1 hwj.1)
  · intro c hc hfin
    obtain ⟨-, he, hm⟩ := interleave_invariant2 ok pool m F S hdisj hS hwithin c hc
    funext a
    by_cases h : ∃ i, F i a
    · obtain ⟨i, hi⟩ := h
      have := he i a hi
      rw [hfin i] at this
      rw [hin i a hi, ← this]; rfl
    · have h' : ∀ i, ¬ F i a := fun i hi => h ⟨i, hi⟩
      rw [hm a h', hout a h']
  · intro c hc
    induction c using (step_wf (ι := ι) (A := A) (R := R) ok).induction with
    | _ c ih =>
      rcases progress ok c (hrange c hc) with hf | ⟨c', hs⟩
      · exact ⟨c, .refl, hf⟩
      · obtain ⟨c'', h1, h2⟩ := ih c' hs (hc.tail hs)
        exact ⟨c'', .head hs h1, h2⟩

end Par
end Verif
