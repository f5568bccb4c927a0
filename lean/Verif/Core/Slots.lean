import Verif.Core.Device
import Mathlib.Data.Finite.Sigma

/-!
# Teams working on separate slots of a batch

A launch over a `TeamPolicy` whose team `b` runs a kernel on `states._raw(b, ·)` only.  Addresses are pairs of the slot
and the index in it.
-/

namespace Verif
open Relation

/-- the same program on other addresses -/
def Prog.mapAddr {A A' R α : Type} (f : A → A') : Prog A R α → Prog A' R α
  | .pure a => .pure a
  | .read a k => .read (f a) (fun v => (k v).mapAddr f)
  | .write a v k => .write (f a) v (k.mapAddr f)

theorem Prog.mapAddr_read {A A' R α : Type} {f : A → A'} {p : Prog A R α} {a : A'} {k : R → Prog A' R α}
    (h : p.mapAddr f = .read a k) : ∃ a' k', p = .read a' k' ∧ a = f a' ∧ k = fun v => (k' v).mapAddr f := by
  cases p with
  | pure u => cases h
  | write a' v k' => cases h
  | read a' k' => cases h; exact ⟨a', k', rfl, rfl, rfl⟩

theorem Prog.mapAddr_write {A A' R α : Type} {f : A → A'} {p : Prog A R α} {a : A'} {v : R} {k : Prog A' R α}
    (h : p.mapAddr f = .write a v k) : ∃ a' k', p = .write a' v k' ∧ a = f a' ∧ k = k'.mapAddr f := by
  cases p with
  | pure u => cases h
  | read a' k' => cases h
  | write a' v k' => cases h; exact ⟨a', k', rfl, rfl, rfl⟩

theorem Prog.mapAddr_pure {A A' R α : Type} {f : A → A'} {p : Prog A R α} {u : α}
    (h : p.mapAddr f = .pure u) : p = .pure u := by
  cases p with
  | pure u => cases h; rfl
  | read a' k' => cases h
  | write a' v k' => cases h

/-- one kernel launch: number of work items and their programs -/
structure Launch (R : Type) where
  N : Nat
  pool : Pool (Fin N) U64 R

/-- team `b` runs the work items of `pools b` on slot `b` -/
def slotPool {L : Nat} {R : Type} (l : Fin L → Launch R) : Pool ((b : Fin L) × Fin (l b).N) (Nat × U64) R :=
  fun w => ((l w.1).pool w.2).mapAddr (fun a => (w.1.val, a))

/-- an access to a slot of the batch -/
def InBatch (B dim : Nat) (p : Nat × U64) : Prop := p.1 < B ∧ InState dim p.2

section
variable {L : Nat} {R : Type} {B dim : Nat} {l : Fin L → Launch R}

/-- what a configuration of the whole launch looks like to the slots -/
def Projects (l : Fin L → Launch R) (dim : Nat) (m : Nat → U64 → R)
    (c : Pool ((b : Fin L) × Fin (l b).N) (Nat × U64) R × (Nat × U64 → R)) : Prop :=
  ∃ p : (b : Fin L) → Pool (Fin (l b).N) U64 R,
    (∀ w, c.1 w = (p w.1 w.2).mapAddr (fun a => (w.1.val, a))) ∧
    (∀ b : Fin L, ReflTransGen (Step (InState dim)) ((l b).pool, m b.val) (p b, fun a => c.2 (b.val, a))) ∧
    (∀ b, L ≤ b → ∀ a, c.2 (b, a) = m b a)

theorem projects_reach (m : Nat → U64 → R) {c} (hc : ReflTransGen (Step (InBatch B dim)) (slotPool l, fun p => m p.1 p.2) c) :
    Projects l dim m c := by
  classical
  induction hc with
  | refl => exact ⟨fun b => (l b).pool, fun w => rfl, fun b => .refl, fun b _ a => rfl⟩
  | tail _ hs ih =>
    obtain ⟨p, h1, h2, h3⟩ := ih
    cases hs with
    | read pool mem w a k hp ha =>
      dsimp only at h1 h2 h3 ⊢
      obtain ⟨b, i⟩ := w
      have e := h1 ⟨b, i⟩
      rw [hp] at e
      cases hpi : p b i with
      | pure u => simp only [hpi, Prog.mapAddr] at e; cases e
      | write a' v k' => simp only [hpi, Prog.mapAddr] at e; cases e
      | read a' k' =>
        simp only [hpi, Prog.mapAddr] at e
        injection e with ea ek
        subst ea; subst ek
        refine ⟨Function.update p b (Function.update (p b) i (k' (mem (b.val, a')))), ?_, ?_, h3⟩
        · rintro ⟨b', i'⟩
          by_cases hb : b' = b
          · subst hb
            by_cases hi : i' = i
            · subst hi; simp
            · have hne : (⟨b', i'⟩ : (b : Fin L) × Fin (l b).N) ≠ ⟨b', i⟩ := fun h => hi (by cases h; rfl)
              dsimp only
              rw [Function.update_of_ne hne, Function.update_self, Function.update_of_ne hi]
              exact h1 ⟨b', i'⟩
          · have hne : (⟨b', i'⟩ : (b : Fin L) × Fin (l b).N) ≠ ⟨b, i⟩ := fun h => hb (by cases h; rfl)
            dsimp only
            rw [Function.update_of_ne hne, Function.update_of_ne hb]
            exact h1 ⟨b', i'⟩
        · intro b'
          by_cases hb : b' = b
          · subst hb
            rw [Function.update_self]
            exact (h2 b').tail (Step.read _ _ i a' k' hpi ha.2)
          · rw [Function.update_of_ne hb]; exact h2 b'
    | write pool mem w a v k hp ha =>
      dsimp only at h1 h2 h3 ⊢
      obtain ⟨b, i⟩ := w
      have e := h1 ⟨b, i⟩
      rw [hp] at e
      cases hpi : p b i with
      | pure u => simp only [hpi, Prog.mapAddr] at e; cases e
      | read a' k' => simp only [hpi, Prog.mapAddr] at e; cases e
      | write a' v' k' =>
        simp only [hpi, Prog.mapAddr] at e
        injection e with ea ev ek
        subst ea; subst ev; subst ek
        refine ⟨Function.update p b (Function.update (p b) i k'), ?_, ?_, ?_⟩
        · rintro ⟨b', i'⟩
          by_cases hb : b' = b
          · subst hb
            by_cases hi : i' = i
            · subst hi; simp
            · have hne : (⟨b', i'⟩ : (b : Fin L) × Fin (l b).N) ≠ ⟨b', i⟩ := fun h => hi (by cases h; rfl)
              dsimp only
              rw [Function.update_of_ne hne, Function.update_self, Function.update_of_ne hi]
              exact h1 ⟨b', i'⟩
          · have hne : (⟨b', i'⟩ : (b : Fin L) × Fin (l b).N) ≠ ⟨b, i⟩ := fun h => hb (by cases h; rfl)
            dsimp only
            rw [Function.update_of_ne hne, Function.update_of_ne hb]
            exact h1 ⟨b', i'⟩
        · intro b'
          by_cases hb : b' = b
          · subst hb
            rw [Function.update_self]
            have := (h2 b').tail (Step.write _ _ i a' v k' hpi ha.2)
            convert this using 2
            funext x
            by_cases hx : x = a'
            · subst hx; simp
            · dsimp only
              rw [Function.update_of_ne hx, Function.update_of_ne (fun h => hx (congrArg Prod.snd h))]
          · rw [Function.update_of_ne hb]
            convert h2 b' using 2
            funext x
            dsimp only
            rw [Function.update_of_ne]
            intro h
            exact hb (Fin.ext (congrArg Prod.fst h))
        · intro b' hb' x
          dsimp only
          rw [Function.update_of_ne]
          · exact h3 b' hb' x
          · intro h
            have := congrArg Prod.fst h
            have h4 : b' = b.val := this
            have := b.isLt
            omega

/-- **Slot theorem**: if every kernel runs well on its own slot then the launch runs well on the batch. -/
theorem slots_run {m m' : Nat → U64 → R} (hLB : L ≤ B) (h : ∀ b : Fin L, Runs (InState dim) (l b).pool (m b.val) (m' b.val))
    (hrest : ∀ b, L ≤ b → m' b = m b) :
    Runs (InBatch B dim) (slotPool l) (fun p => m p.1 p.2) (fun p => m' p.1 p.2) := by
  classical
  have hrange : ∀ c, ReflTransGen (Step (InBatch B dim)) (slotPool l, fun p => m p.1 p.2) c → ¬ OutOfRange (InBatch B dim) c := by
    rintro c hc ⟨⟨b, i⟩, a, hna, hacc⟩
    obtain ⟨p, h1, h2, h3⟩ := projects_reach m hc
    have e := h1 ⟨b, i⟩
    rcases hacc with ⟨k, hk⟩ | ⟨v, k, hk⟩
    · rw [hk] at e
      obtain ⟨a', k', hp, rfl, -⟩ := Prog.mapAddr_read e.symm
      exact (h b).in_range _ (h2 b) ⟨i, a', fun hin => hna ⟨lt_of_lt_of_le b.isLt hLB, hin⟩, Or.inl ⟨_, hp⟩⟩
    · rw [hk] at e
      obtain ⟨a', k', hp, rfl, -⟩ := Prog.mapAddr_write e.symm
      exact (h b).in_range _ (h2 b) ⟨i, a', fun hin => hna ⟨lt_of_lt_of_le b.isLt hLB, hin⟩, Or.inr ⟨_, _, hp⟩⟩
  refine ⟨hrange, ?_, ?_, ?_⟩
  · rintro c hc ⟨⟨b, i⟩, ⟨b', i'⟩, a, hne, ⟨v, k, hk⟩, hacc⟩
    obtain ⟨p, h1, h2, h3⟩ := projects_reach m hc
    have e := h1 ⟨b, i⟩
    have e' := h1 ⟨b', i'⟩
    rw [hk] at e
    obtain ⟨x, k1, hp, rfl, -⟩ := Prog.mapAddr_write e.symm
    rcases hacc with ⟨k2, hk2⟩ | ⟨v2, k2, hk2⟩
    · rw [hk2] at e'
      obtain ⟨y, k3, hp', hxy, -⟩ := Prog.mapAddr_read e'.symm
      have hb : b = b' := Fin.ext (congrArg Prod.fst hxy)
      have hxy' : x = y := congrArg Prod.snd hxy
      subst hb; subst hxy'
      exact (h b).no_race _ (h2 b) ⟨i, i', x, fun e => hne (by rw [e]), ⟨v, k1, hp⟩, Or.inl ⟨_, hp'⟩⟩
    · rw [hk2] at e'
      obtain ⟨y, k3, hp', hxy, -⟩ := Prog.mapAddr_write e'.symm
      have hb : b = b' := Fin.ext (congrArg Prod.fst hxy)
      have hxy' : x = y := congrArg Prod.snd hxy
      subst hb; subst hxy'
      exact (h b).no_race _ (h2 b) ⟨i, i', x, fun e => hne (by rw [e]), ⟨v, k1, hp⟩, Or.inr ⟨_, _, hp'⟩⟩
  · intro c hc hfin
    obtain ⟨p, h1, h2, h3⟩ := projects_reach m hc
    funext ⟨b, a⟩
    by_cases hb : b < L
    · have := (h ⟨b, hb⟩).result _ (h2 ⟨b, hb⟩) (fun i => by
        have e := h1 ⟨⟨b, hb⟩, i⟩
        rw [hfin ⟨⟨b, hb⟩, i⟩] at e
        exact Prog.mapAddr_pure e.symm)
      exact congrFun this a
    · rw [h3 b (by omega)]
      show _ = m' b a
      rw [hrest b (by omega)]
  · intro c hc
    induction c using (step_wf (ι := (b : Fin L) × Fin (l b).N) (A := Nat × U64) (R := R) (InBatch B dim)).induction with
    | _ c ih =>
      rcases progress (InBatch B dim) c (hrange c hc) with hf | ⟨c', hs⟩
      · exact ⟨c, .refl, hf⟩
      · obtain ⟨c'', h1, h2⟩ := ih c' hs (hc.tail hs)
        exact ⟨c'', .head hs h1, h2⟩

end
end Verif
