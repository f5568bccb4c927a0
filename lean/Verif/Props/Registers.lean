import Verif.Proofs.Registers

/-!
# C88: classical registers as objects

`RegHeap.run` (Model/Registers) executes programs on memory; `RegStore.run` (Spec/Registers) says which bits every register has.
-/

namespace Verif.Props
open Verif Verif.Model Verif.Spec Verif.Proofs

/-- every observer reports what the specification says; an index out of range is refused with an exception -/
structure RegShows (h : RegHeap) (s : RegStore) : Prop where
  get : ∀ x k b i, s.reg x = some (k, b) → if i < s.size k then h.get x i = .ok (s.bit k b i) else ∃ m, h.get x i = .error (.throw m)
  sizeOf : ∀ x k b, s.reg x = some (k, b) → h.sizeOf x = .ok (s.size k)
  isEmpty : ∀ x k b, s.reg x = some (k, b) → h.isEmpty x = .ok (s.size k == 0)
  getB : ∀ X k b i, s.bat X = some k →
    if b < s.count k ∧ i < s.size k then h.getB X b i = .ok (s.bit k b i) else ∃ m, h.getB X b i = .error (.throw m)
  sizeB : ∀ X k, s.bat X = some k → h.sizeB X = .ok (s.size k)
  batchB : ∀ X k, s.bat X = some k → h.batchB X = .ok (s.count k)

theorem regShows_of_rel {h : RegHeap} {s : RegStore} (H : RegRel h s) : RegShows h s where
  get := fun x k b i hx => by
    obtain ⟨l, h1, h2, h3⟩ := rel_loc H hx
    obtain ⟨r, h4, h5⟩ := rel_load H h3
    rw [h2] at h5
    have h6 := isBits_read h5 i
    unfold RegHeap.get
    rw [h1, ok_bind, h4, ok_bind]
    exact h6
  sizeOf := fun x k b hx => by
    obtain ⟨l, h1, h2, h3⟩ := rel_loc H hx
    obtain ⟨r, h4, h5⟩ := rel_load H h3
    rw [h2] at h5
    unfold RegHeap.sizeOf
    rw [h1, ok_bind, h4, ok_bind, h5.1]
  isEmpty := fun x k b hx => by
    obtain ⟨l, h1, h2, h3⟩ := rel_loc H hx
    obtain ⟨r, h4, h5⟩ := rel_load H h3
    rw [h2] at h5
    unfold RegHeap.isEmpty
    rw [h1, ok_bind, h4, ok_bind, ← h5.1]
    cases r <;> rfl
  getB := fun X k b i hX => by
    obtain ⟨B, h1, h2⟩ := rel_batch H hX
    have h3 := batch_at (H.obj k _ h2) b
    unfold RegHeap.getB
    rw [h1, ok_bind]
    dsimp only
    split at h3
    · rename_i hb
      obtain ⟨r, h4, h5⟩ := h3
      have h6 := isBits_read h5 i
      rw [h4, ok_bind]
      by_cases hi : i < s.size k
      · rw [if_pos hi] at h6; rw [if_pos ⟨hb, hi⟩]; exact h6
      · rw [if_neg hi] at h6; rw [if_neg fun h => hi h.2]; exact h6
    · rename_i hb
      obtain ⟨m, h4⟩ := h3
      rw [h4, if_neg fun h => hb h.1]
      exact ⟨m, rfl⟩
  sizeB := fun X k hX => by
    obtain ⟨B, h1, h2⟩ := rel_batch H hX
    unfold RegHeap.sizeB
    rw [h1, ok_bind]
    exact congrArg Except.ok (H.obj k _ h2).1
  batchB := fun X k hX => by
    obtain ⟨B, h1, h2⟩ := rel_batch H hX
    unfold RegHeap.batchB
    rw [h1, ok_bind]
    exact congrArg Except.ok (H.obj k _ h2).2.1

/-- **C88**: after every program, whatever commands were refused on the way, all names show the bits and the sizes that the specification
says, and nothing undefined was done. -/
theorem C88_registers (P : List RegCmd) (s : RegStore) (hs : RegStore.empty.run P = some s) :
    ∃ h, RegHeap.empty.run P = .ok h ∧ RegShows h s := by
  obtain ⟨h, h1, h2⟩ := reg_run reg_empty hs
  exact ⟨h, h1, regShows_of_rel h2⟩

/-- a program with two names for one slot, a copy, writes through all of them, two refused commands and a reset -/
def C88_program : List RegCmd :=
  [.newB "X" 3 2, .ref "r" "X" 1, .set "r" 2 true, .copy "c" "r", .setB "X" 1 0 true, .set "r" 3 true, .new "d" 2, .assign "X" 0 "d",
    .assign "X" 0 "c", .reset "r"]

example : ∃ s, RegStore.empty.run C88_program = some s := ⟨_, rfl⟩

/-- slot 0 received the bits that `r` had when `c` was made; slot 1 was reset through `r`; the write beyond the end and the assignment of
a register of another size did nothing -/
example : ∃ h, RegHeap.empty.run C88_program = .ok h ∧ h.getB "X" 0 2 = .ok true ∧ h.getB "X" 0 0 = .ok false ∧ h.getB "X" 1 2 = .ok false ∧
    h.get "r" 0 = .ok false ∧ h.get "c" 2 = .ok true ∧ h.sizeB "X" = .ok 3 := ⟨_, rfl, rfl, rfl, rfl, rfl, rfl, rfl⟩

theorem step_keeps {s s' : RegStore} {c : RegCmd} (h : s.step c = .done s') {k : Nat} (hk : k < s.objs) :
    k < s'.objs ∧ s'.size k = s.size k ∧ s'.count k = s.count k ∧ (¬ c.writesTo s k → s'.bit k = s.bit k) := by
  have hf : ∀ {α : Type} (g : Nat → α) (v : α), Function.update g s.objs v k = g k := fun g v => Function.update_of_ne (Nat.ne_of_lt hk) v g
  have hw : ∀ {k1 b : Nat} {f : Nat → Bool}, k1 ≠ k → (s.write k1 b f).bit k = s.bit k := fun h => Function.update_of_ne (Ne.symm h) _ _
  cases c <;> dsimp only [RegStore.step] at h
  case new => cases h; exact ⟨Nat.lt_succ_of_lt hk, hf _ _, hf _ _, fun _ => hf _ _⟩
  case newB => cases h; exact ⟨Nat.lt_succ_of_lt hk, hf _ _, hf _ _, fun _ => hf _ _⟩
  case same => split at h <;> cases h; exact ⟨hk, rfl, rfl, fun _ => rfl⟩
  case sameB => split at h <;> cases h; exact ⟨hk, rfl, rfl, fun _ => rfl⟩
  case copy => split at h <;> cases h; exact ⟨Nat.lt_succ_of_lt hk, hf _ _, hf _ _, fun _ => hf _ _⟩
  case copyB => split at h <;> cases h; exact ⟨Nat.lt_succ_of_lt hk, hf _ _, hf _ _, fun _ => hf _ _⟩
  case ref =>
    split at h
    · cases h
    · split at h <;> cases h
      exact ⟨hk, rfl, rfl, fun _ => rfl⟩
  case set =>
    split at h
    · cases h
    · rename_i k1 b1 hx
      split at h <;> cases h
      refine ⟨hk, rfl, rfl, fun hn => hw fun he => hn ⟨b1, ?_⟩⟩
      rw [hx, he]
  case reset =>
    split at h
    · cases h
    · rename_i k1 b1 hx
      cases h
      refine ⟨hk, rfl, rfl, fun hn => hw fun he => hn ⟨b1, ?_⟩⟩
      rw [hx, he]
  case setB =>
    split at h
    · cases h
    · rename_i k1 hx
      split at h <;> cases h
      refine ⟨hk, rfl, rfl, fun hn => hw fun he => hn ?_⟩
      show s.bat _ = _
      rw [hx, he]
  case resetB =>
    split at h
    · cases h
    · rename_i k1 hx
      cases h
      refine ⟨hk, rfl, rfl, fun hn => Function.update_of_ne (fun he => hn ?_) _ _⟩
      show s.bat _ = _
      rw [hx, he]
  case assign =>
    split at h
    · rename_i k1 k2 b2 hx hy
      split at h <;> cases h
      refine ⟨hk, rfl, rfl, fun hn => hw fun he => hn ?_⟩
      show s.bat _ = _
      rw [hx, he]
    · cases h

/-- **C88 (sizes)**: the size of a register and the number of registers of a batch never change after construction -/
theorem C88_sizes (P : List RegCmd) : ∀ (s s' : RegStore), s.run P = some s' → ∀ k, k < s.objs →
    k < s'.objs ∧ s'.size k = s.size k ∧ s'.count k = s.count k := by
  induction P with
  | nil => intro s s' h k hk; cases h; exact ⟨hk, rfl, rfl⟩
  | cons c cs ih =>
    intro s s' h k hk
    unfold RegStore.run at h
    cases hc : s.step c with
    | done s1 =>
      rw [hc] at h
      obtain ⟨h1, h2, h3, -⟩ := step_keeps hc hk
      obtain ⟨h4, h5, h6⟩ := ih s1 s' h k h1
      exact ⟨h4, h5.trans h2, h6.trans h3⟩
    | refused => rw [hc] at h; exact ih s s' h k hk
    | unspecified => rw [hc] at h; cases h

example : ∃ s', (RegStore.empty.fresh 3 2 fun _ _ => true).run [.new "x" 5, .set "x" 4 true] = some s' ∧ s'.size 0 = 3 := ⟨_, rfl, rfl⟩

/-- **C88 (independence)**: a command that does not go through a name of an object leaves its bits alone; in particular a copy and its
original do not see each other's changes -/
theorem C88_independent {s s' : RegStore} {c : RegCmd} (h : s.step c = .done s') {k : Nat} (hk : k < s.objs) (hw : ¬ c.writesTo s k)
    (b i : Nat) : s'.bit k b i = s.bit k b i := by
  rw [(step_keeps h hk).2.2.2 hw]

example : ∃ s s', RegStore.empty.run [.new "x" 1, .copy "y" "x"] = some s ∧ s.step (.set "y" 0 true) = .done s' ∧ 0 < s.objs ∧
    ¬ (RegCmd.set "y" 0 true).writesTo s 0 ∧ s'.bit 1 0 0 = true :=
  ⟨_, _, rfl, rfl, Nat.zero_lt_succ _, (by rintro ⟨b, h⟩; simp [RegStore.empty, RegStore.fresh] at h), rfl⟩

/-- **C88 (deviation)**: in C++ the assignment `X[b] = y` does not compare sizes (the Python `__setitem__` does).  Afterwards
`X.register_size()` still reports 2, while the register in slot 0 has no bit 1. -/
theorem C88_cpp_assignment :
    ∃ h h', RegHeap.empty.run [.newB "X" 2 1, .new "y" 1] = .ok h ∧ h.assignSlot "X" 0 [false] = .ok h' ∧
      h.load (.own 1) = .ok [false] ∧ h'.sizeB "X" = .ok 2 ∧
      h'.getB "X" 0 1 = .error (.throw "ClassicalRegister::operator[](std::uint64_t): index out of bounds") :=
  ⟨_, _, rfl, rfl, rfl, rfl, rfl⟩

end Verif.Props
