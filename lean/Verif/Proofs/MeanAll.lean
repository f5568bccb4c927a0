import Verif.Spec.NoiseLaw

/-! # Averages over independent choices -/

namespace Verif.Proofs
open Verif Verif.Spec Verif.Model

section
variable {α β γ E : Type*} [AddCommGroup E] [Module ℝ E]

@[simp] theorem mean_nil (g : α → E) : mean [] g = 0 := rfl
theorem mean_cons (a : α × ℝ) (A : List (α × ℝ)) (g : α → E) : mean (a :: A) g = a.2 • g a.1 + mean A g := rfl

theorem mean_append (A B : List (α × ℝ)) (g : α → E) : mean (A ++ B) g = mean A g + mean B g := by
  unfold mean; rw [List.map_append, List.sum_append]

theorem mean_add (A : List (α × ℝ)) (g h : α → E) : mean A (fun a => g a + h a) = mean A g + mean A h := by
  induction A with
  | nil => simp
  | cons a A ih => rw [mean_cons, mean_cons, mean_cons, ih, smul_add]; abel

theorem mean_smul (A : List (α × ℝ)) (c : ℝ) (g : α → E) : mean A (fun a => c • g a) = c • mean A g := by
  induction A with
  | nil => simp
  | cons a A ih => rw [mean_cons, mean_cons, ih, smul_add, smul_smul, smul_smul, mul_comm]

theorem mean_const (A : List (α × ℝ)) (c : E) : mean A (fun _ => c) = (A.map (·.2)).sum • c := by
  induction A with
  | nil => simp
  | cons a A ih => rw [mean_cons, ih, List.map_cons, List.sum_cons, add_smul]

theorem mean_zero (A : List (α × ℝ)) : mean A (fun _ => (0 : E)) = 0 := by rw [mean_const, smul_zero]

theorem mean_congr {A : List (α × ℝ)} {g h : α → E} (he : ∀ a ∈ A, g a.1 = h a.1) : mean A g = mean A h := by
  unfold mean
  rw [List.map_congr_left fun a ha => by rw [he a ha]]

theorem mean_comm (A : List (α × ℝ)) (B : List (β × ℝ)) (f : α → β → E) :
    mean A (fun a => mean B (f a)) = mean B fun b => mean A fun a => f a b := by
  induction A with
  | nil => simp [mean_zero]
  | cons a A ih =>
    rw [mean_cons, ih, ← mean_smul, ← mean_add]
    rfl

theorem mean_flatMap (A : List (α × ℝ)) (B : List (β × ℝ)) (c : α → β → γ) (g : γ → E) :
    mean (A.flatMap fun a => B.map fun b => (c a.1 b.1, a.2 * b.2)) g = mean A fun a => mean B fun b => g (c a b) := by
  induction A with
  | nil => rfl
  | cons a A ih =>
    rw [List.flatMap_cons, mean_append, ih, mean_cons, ← mean_smul]
    congr 1
    unfold mean
    rw [List.map_map]
    refine congrArg List.sum (List.map_congr_left fun b _ => ?_)
    show (a.2 * b.2) • _ = b.2 • a.2 • _
    rw [smul_smul, mul_comm]

theorem meanAll_congr {As : List (List (α × ℝ))} {f g : List α → E}
    (h : ∀ r, List.Forall₂ (fun a A => a ∈ A.map Prod.fst) r As → f r = g r) : meanAll As f = meanAll As g := by
  induction As generalizing f g with
  | nil => exact h [] .nil
  | cons A As ih =>
    refine mean_congr fun a ha => ih fun r hr => h _ (.cons (List.mem_map.2 ⟨a, ha, rfl⟩) hr)

theorem meanAll_append (As Bs : List (List (α × ℝ))) (f : List α → E) :
    meanAll (As ++ Bs) f = meanAll As fun a => meanAll Bs fun b => f (a ++ b) := by
  induction As generalizing f with
  | nil => rfl
  | cons A As ih => exact mean_congr fun a _ => ih _

theorem mean_meanAll_comm (A : List (α × ℝ)) (Bs : List (List (β × ℝ))) (f : α → List β → E) :
    mean A (fun a => meanAll Bs (f a)) = meanAll Bs fun r => mean A fun a => f a r := by
  induction Bs generalizing f with
  | nil => rfl
  | cons B Bs ih =>
    show mean A (fun a => mean B fun b => meanAll Bs fun r => f a (b :: r)) = mean B fun b => meanAll Bs fun r => mean A fun a => f a (b :: r)
    rw [mean_comm]
    exact mean_congr fun b _ => ih _

theorem meanAll_add (As : List (List (α × ℝ))) (f g : List α → E) : meanAll As (fun r => f r + g r) = meanAll As f + meanAll As g := by
  induction As generalizing f g with
  | nil => rfl
  | cons A As ih =>
    show mean A (fun a => meanAll As fun r => f (a :: r) + g (a :: r)) = _
    simp only [fun a => ih (fun r => f (a :: r)) fun r => g (a :: r), mean_add]
    rfl

theorem meanAll_smul (As : List (List (α × ℝ))) (c : ℝ) (f : List α → E) : meanAll As (fun r => c • f r) = c • meanAll As f := by
  induction As generalizing f with
  | nil => rfl
  | cons A As ih =>
    show mean A (fun a => meanAll As fun r => c • f (a :: r)) = _
    simp only [fun a => ih fun r => f (a :: r), mean_smul]
    rfl

theorem meanAll_const {As : List (List (α × ℝ))} (h : ∀ A ∈ As, (A.map (·.2)).sum = 1) (c : E) : meanAll As (fun _ => c) = c := by
  induction As with
  | nil => rfl
  | cons A As ih =>
    show mean A (fun _ => meanAll As fun _ => c) = c
    rw [ih fun A hA => h A (List.mem_cons_of_mem _ hA), mean_const, h A List.mem_cons_self, one_smul]

/-- the order of the partners does not matter -/
theorem meanAll_perm {P P' : List β} (hp : P.Perm P') (A : List (α × ℝ)) {H : List (β × α) → E} (hH : ∀ l l', l.Perm l' → H l = H l') :
    meanAll (List.replicate P.length A) (fun d => H (P.zip d)) = meanAll (List.replicate P'.length A) fun d => H (P'.zip d) := by
  induction hp generalizing H with
  | nil => rfl
  | cons x _ ih =>
    refine mean_congr fun a _ => ?_
    exact ih (H := fun l => H ((x, a.1) :: l)) fun l l' h => hH _ _ (h.cons _)
  | swap x y l =>
    show mean A (fun a => mean A fun b => meanAll _ fun r => H ((y, a) :: (x, b) :: l.zip r)) =
      mean A fun a => mean A fun b => meanAll _ fun r => H ((x, a) :: (y, b) :: l.zip r)
    rw [mean_comm]
    refine mean_congr fun b _ => mean_congr fun a _ => meanAll_congr fun r _ => hH _ _ (.swap _ _ _)
  | trans _ _ ih1 ih2 => rw [ih1 hH, ih2 hH]

/-- two independent lists are one list of pairs -/
theorem meanAll_pairs (m : Nat) (A : List (α × ℝ)) (B : List (β × ℝ)) (c : α → β → γ) (f : List γ → E) :
    meanAll (List.replicate m A) (fun a => meanAll (List.replicate m B) fun b => f (List.zipWith c a b)) =
      meanAll (List.replicate m (A.flatMap fun a => B.map fun b => (c a.1 b.1, a.2 * b.2))) f := by
  induction m generalizing f with
  | zero => rfl
  | succ m ih =>
    show mean A (fun a => meanAll (List.replicate m A) fun as => mean B fun b => meanAll (List.replicate m B) fun bs =>
      f (c a b :: List.zipWith c as bs)) = mean _ fun x => meanAll _ fun r => f (x :: r)
    rw [mean_flatMap]
    refine mean_congr fun a _ => ?_
    rw [← mean_meanAll_comm]
    exact mean_congr fun b _ => ih fun r => f (c a.1 b.1 :: r)

/-! ## quantities of many independent choices -/

theorem meanAll_sum (m : Nat) {A : List (α × ℝ)} (hA : (A.map (·.2)).sum = 1) (g : α → E) :
    meanAll (List.replicate m A) (fun r => (r.map g).sum) = (m : ℝ) • mean A g := by
  induction m with
  | zero => simp [meanAll]
  | succ m ih =>
    show mean A (fun a => meanAll (List.replicate m A) fun r => g a + (r.map g).sum) = _
    have hc : ∀ B ∈ List.replicate m A, (B.map (·.2)).sum = 1 := by intro B hB; rw [(List.mem_replicate.1 hB).2]; exact hA
    simp only [meanAll_add, ih, meanAll_const hc, mean_add, mean_const, hA]
    push_cast
    rw [add_smul, one_smul, one_smul, add_comm]

theorem meanAll_sq (m : Nat) {A : List (α × ℝ)} (hA : (A.map (·.2)).sum = 1) {g : α → ℝ} (h0 : mean A g = 0) :
    meanAll (List.replicate m A) (fun r => (r.map g).sum ^ 2) = m * mean A fun a => g a ^ 2 := by
  induction m with
  | zero => simp [meanAll]
  | succ m ih =>
    have hc : ∀ B ∈ List.replicate m A, (B.map (·.2)).sum = 1 := by intro B hB; rw [(List.mem_replicate.1 hB).2]; exact hA
    show mean A (fun a => meanAll (List.replicate m A) fun r => (g a + (r.map g).sum) ^ 2) = _
    have : ∀ a : α, meanAll (List.replicate m A) (fun r => (g a + (r.map g).sum) ^ 2) = g a ^ 2 + m * mean A fun a => g a ^ 2 := by
      intro a
      have e : (fun r : List α => (g a + (r.map g).sum) ^ 2) = fun r => (g a ^ 2 + (2 * g a) • (r.map g).sum) + (r.map g).sum ^ 2 := by
        funext r; simp only [smul_eq_mul]; ring
      rw [e, meanAll_add, meanAll_add, meanAll_const hc, meanAll_smul, meanAll_sum m hA, h0, ih]
      simp
    simp only [this, mean_add, mean_const, hA]
    simp only [smul_eq_mul]
    push_cast
    ring

theorem meanAll_count (m : Nat) {A : List (α × ℝ)} (hA : (A.map (·.2)).sum = 1) (S : α → Bool) {q : ℝ}
    (hq : q = mean A fun a => if S a then (1 : ℝ) else 0) (c : Nat) :
    meanAll (List.replicate m A) (fun r => if r.countP S = c then (1 : ℝ) else 0) = m.choose c * q ^ c * (1 - q) ^ (m - c) := by
  have hsplit : ∀ x y : ℝ, mean A (fun a => if S a then x else y) = q * x + (1 - q) * y := by
    intro x y
    have e : (fun a => if S a then x else y) = fun a => ((x - y) • (if S a then (1 : ℝ) else 0)) + y := by
      funext a; split <;> simp
    rw [e, mean_add, mean_smul, mean_const, hA, ← hq]
    simp only [smul_eq_mul]; ring
  induction m generalizing c with
  | zero =>
    show (if 0 = c then (1 : ℝ) else 0) = _
    cases c with
    | zero => simp
    | succ c => simp
  | succ m ih =>
    show mean A (fun a => meanAll (List.replicate m A) fun r => if (a :: r).countP S = c then (1 : ℝ) else 0) = _
    have : ∀ a : α, meanAll (List.replicate m A) (fun r => if (a :: r).countP S = c then (1 : ℝ) else 0) =
        if S a then (match c with
          | 0 => 0
          | c + 1 => m.choose c * q ^ c * (1 - q) ^ (m - c)) else m.choose c * q ^ c * (1 - q) ^ (m - c) := by
      intro a
      by_cases hs : S a = true
      · rw [if_pos hs]
        cases c with
        | zero =>
          simp only [List.countP_cons, hs, if_true, Nat.add_eq_zero_iff, one_ne_zero, and_false, if_false]
          exact meanAll_const (by intro B hB; rw [(List.mem_replicate.1 hB).2]; exact hA) 0
        | succ c =>
          simp only [List.countP_cons, hs, if_true, Nat.add_right_cancel_iff]
          exact ih c
      · rw [if_neg hs]
        simp only [List.countP_cons, hs, if_false, Nat.add_zero]
        exact ih c
    simp only [this, hsplit]
    cases c with
    | zero => simp; ring
    | succ c =>
      rw [Nat.choose_succ_succ]
      push_cast
      by_cases hc : c + 1 ≤ m
      · rw [show m - c = m - (c + 1) + 1 by omega, Nat.succ_eq_add_one]
        ring
      · rw [Nat.choose_eq_zero_of_lt (show m < c + 1 by omega)]
        push_cast; ring

end

/-! ## choosing line by line -/

/-- `r` computes lists of paths from draws: a block of `m` draws for every line, which extend the paths in some order that does not
depend on the block -/
def Layered (m : Nat) : List (List (ℕ × ℝ)) → List (List ℕ) → (List ℕ → List (List ℕ)) → Prop
  | [], P, r => (r []).Perm P
  | A :: As, P, r => ∃ g, g.Perm P ∧ ∀ d, d.length = m → (∀ j ∈ d, j ∈ A.map Prod.fst) →
      Layered m As (List.zipWith (fun p i => p ++ [i]) g d) fun D => r (d ++ D)

section
variable {E : Type*} [AddCommGroup E] [Module ℝ E]

theorem forall₂_replicate {α β : Type*} {R : α → β → Prop} {r : List α} {m : Nat} {A : β} (h : List.Forall₂ R r (List.replicate m A)) :
    r.length = m ∧ ∀ a ∈ r, R a A := by
  refine ⟨by simpa using h.length_eq, fun a ha => ?_⟩
  obtain ⟨i, hi, rfl⟩ := List.mem_iff_getElem.1 ha
  have := (List.forall₂_iff_get.1 h).2 i hi (by rw [← h.length_eq]; exact hi)
  simpa using this

theorem zipWith_flat {α : Type*} (g : List (List α)) (d : List α) (e : List (List α)) :
    List.zipWith (· ++ ·) (List.zipWith (fun p i => p ++ [i]) g d) e = List.zipWith (· ++ ·) g (List.zipWith (· :: ·) d e) := by
  induction g generalizing d e with
  | nil => simp
  | cons x xs ih =>
    cases d with
    | nil => simp
    | cons y ys =>
      cases e with
      | nil => simp
      | cons z zs => simp [ih]

theorem layered_mean {m : Nat} {ls : List Line} {P : List (List ℕ)} (hP : P.length = m) {r : List ℕ → List (List ℕ)}
    (h : Layered m (ls.map fun l => l.instr.chances) P r) {F : List (List ℕ) → E} (hF : ∀ l l', l.Perm l' → F l = F l') :
    meanAll ((ls.map fun l => l.instr.chances).flatMap (List.replicate m)) (fun D => F (r D)) =
      shotsMean ls m fun e => F (List.zipWith (· ++ ·) P e) := by
  induction ls generalizing P r with
  | nil =>
    show F (r []) = meanAll (List.replicate m [([], 1)]) _
    rw [hF _ _ h, meanAll_congr (g := fun _ => F P), meanAll_const]
    · intro A hA; rw [(List.mem_replicate.1 hA).2]; simp
    · intro e he
      obtain ⟨h1, h2⟩ := forall₂_replicate he
      congr 1
      rw [← hP] at h1
      clear he hF h hP
      induction P generalizing e with
      | nil => simp
      | cons p P ih =>
        cases e with
        | nil => simp at h1
        | cons x xs =>
          have hx := h2 x List.mem_cons_self
          simp only [List.map_cons, List.map_nil, List.mem_singleton] at hx
          subst hx
          rw [List.zipWith_cons_cons, ih xs (by simpa using h1) fun a ha => h2 a (List.mem_cons_of_mem _ ha), List.append_nil]
  | cons l ls ih =>
    obtain ⟨g, hg, hr⟩ := h
    rw [List.map_cons, List.flatMap_cons, meanAll_append]
    -- the draws of the first line
    have h1 : meanAll (List.replicate m l.instr.chances) (fun a => meanAll ((ls.map fun l => l.instr.chances).flatMap (List.replicate m))
          fun b => F (r (a ++ b))) =
        meanAll (List.replicate g.length l.instr.chances) fun d => (fun x : List (List ℕ × ℕ) =>
          meanAll (List.replicate x.length (pathChances ls)) fun e => F (List.zipWith (· ++ ·) (x.map fun y => y.1 ++ [y.2]) e)) (g.zip d) := by
      rw [hg.length_eq, hP]
      refine meanAll_congr fun d hd => ?_
      obtain ⟨hl, hm⟩ := forall₂_replicate hd
      have hgl : g.length = m := by rw [hg.length_eq, hP]
      rw [ih (P := List.zipWith (fun p i => p ++ [i]) g d) (by simp [hgl, hl]) (hr d hl hm)]
      show meanAll (List.replicate m _) _ = meanAll (List.replicate (g.zip d).length _) _
      rw [show (g.zip d).length = m by simp [hgl, hl]]
      refine meanAll_congr fun e _ => ?_
      rw [List.zip, List.map_zipWith]
    refine (h1.trans (meanAll_perm hg l.instr.chances (H := fun x : List (List ℕ × ℕ) =>
          meanAll (List.replicate x.length (pathChances ls)) fun e => F (List.zipWith (· ++ ·) (x.map fun y => y.1 ++ [y.2]) e)) ?_)).trans ?_
    rotate_left
    · rw [hP]
      show _ = meanAll (List.replicate m (l.instr.chances.flatMap fun a => (pathChances ls).map fun p => (a.1 :: p.1, a.2 * p.2))) _
      rw [← meanAll_pairs m l.instr.chances (pathChances ls) (· :: ·) fun e => F (List.zipWith (· ++ ·) P e)]
      refine meanAll_congr fun d hd => ?_
      obtain ⟨hl, -⟩ := forall₂_replicate hd
      show meanAll (List.replicate (P.zip d).length _) _ = _
      rw [show (P.zip d).length = m by simp [hP, hl]]
      refine meanAll_congr fun e _ => ?_
      rw [List.zip, List.map_zipWith, zipWith_flat]
    · intro x x' hx
      have e : ∀ x : List (List ℕ × ℕ), meanAll (List.replicate x.length (pathChances ls)) (fun e => F (List.zipWith (· ++ ·) (x.map fun y => y.1 ++ [y.2]) e)) =
          meanAll (List.replicate (x.map fun y => y.1 ++ [y.2]).length (pathChances ls)) fun e =>
            (fun z : List (List ℕ × List ℕ) => F (z.map fun w => w.1 ++ w.2)) ((x.map fun y => y.1 ++ [y.2]).zip e) := by
        intro x
        rw [List.length_map]
        refine meanAll_congr fun e _ => ?_
        simp only [List.zip, List.map_zipWith]
      refine (e x).trans ((meanAll_perm (hx.map _) (pathChances ls) (H := fun z : List (List ℕ × List ℕ) => F (z.map fun w => w.1 ++ w.2))
        fun z z' hz => hF _ _ (hz.map _)).trans (e x').symm)

end

end Verif.Proofs
