import Verif.Proofs.TaggedOpt

/-! # `optimize` keeps the fields right -/

namespace Verif.Proofs
open Verif Verif.Model Verif.Spec

/-- all gates of the working state have good fields -/
def GoodOpt (s : TOptState) : Prop := (∀ g ∈ s.gates, GoodItem g) ∧ ∀ g ∈ s.pool, GoodTag g

theorem goodTag_make (g : Gate) : GoodTag (.make g) := .inl rfl

theorem elemAt_mem' {α : Type} {l : List α} {i : Nat} {a : α} (h : elemAt l i = .ok a) : a ∈ l := by
  unfold elemAt at h
  split at h
  · next e => cases h; exact List.mem_of_getElem? e
  · cases h

theorem good_push {s s' : TOptState} {g : TItem} {c : Option Condition} (hs : GoodOpt s) (hg : GoodItem g) (h : s.push g c = .ok s') : GoodOpt s' := by
  obtain ⟨w, -, h⟩ := bind_ok h
  cases h
  refine ⟨fun g' h' => ?_, hs.2⟩
  rcases List.mem_append.1 h' with h' | h'
  · exact hs.1 g' h'
  · rw [List.mem_singleton.1 h']; exact hg

theorem good_wait {s s' : TOptState} {g : TGate} (hs : GoodOpt s) (hg : GoodTag g) (h : s.wait g = .ok s') : GoodOpt s' := by
  obtain ⟨w, -, h⟩ := bind_ok h
  cases h
  refine ⟨hs.1, fun g' h' => ?_⟩
  rcases List.mem_append.1 h' with h' | h'
  · exact hs.2 g' h'
  · rw [List.mem_singleton.1 h']; exact hg

theorem good_foldlM {α β : Type} {f : β → α → Res β} {P : β → Prop} (hf : ∀ b a b', P b → f b a = .ok b' → P b') :
    ∀ (l : List α) {b b' : β}, P b → l.foldlM f b = .ok b' → P b'
  | [], b, b', hb, h => by cases h; exact hb
  | a :: l, b, b', hb, h => by
    rw [List.foldlM_cons] at h
    obtain ⟨b1, h1, h⟩ := bind_ok h
    exact good_foldlM hf l (hf _ _ _ hb h1) h

theorem good_pushAll {s s' : TOptState} {is : List Nat} (hs : GoodOpt s) (h : s.pushAll is = .ok s') : GoodOpt s' := by
  refine good_foldlM (fun b i b' hb hf => ?_) is hs h
  obtain ⟨g, hg, hf⟩ := bind_ok hf
  exact good_push hb (show GoodItem (.inl g) from hb.2 g (elemAt_mem' hg)) hf

theorem good_mergeDenseAny {a b : Gate} {r : TGate × ℝ} (h : mergeDenseAny a b = .ok r) : GoodTag r.1 := by
  unfold mergeDenseAny at h
  obtain ⟨_, -, h⟩ := bind_ok h
  obtain ⟨_, -, h⟩ := bind_ok h
  split at h
  · obtain ⟨_, -, h⟩ := bind_ok h; cases h; exact goodTag_make _
  · obtain ⟨_, -, h⟩ := bind_ok h; cases h; exact goodTag_make _
  · obtain ⟨_, -, h⟩ := bind_ok h; cases h; exact goodTag_make _
  · cases h

theorem good_mergeTagged {a b : TGate} {r : TGate × ℝ} (ha : GoodTag a) (hb : GoodTag b) (h : mergeTagged a b = .ok r) : GoodTag r.1 := by
  unfold mergeTagged at h
  by_cases h1 : a.tag = .Probabilistic ∨ b.tag = .Probabilistic
  · rw [if_pos h1] at h; cases h
  rw [if_neg h1] at h
  by_cases h2 : a.tag = .Permutation ∨ b.tag = .Permutation
  · rw [if_pos h2] at h; cases h
  rw [if_neg h2] at h
  dsimp only at h
  split at h
  · cases h; exact hb
  · split at h
    · cases h; exact ha
    · obtain ⟨_, -, h⟩ := bind_ok h
      obtain ⟨_, -, h⟩ := bind_ok h
      obtain ⟨p, -, h⟩ := bind_ok h
      cases p with
      | some φ => cases h; exact hb
      | none =>
        obtain ⟨p, -, h⟩ := bind_ok h
        cases p with
        | some φ => cases h; exact ha
        | none =>
          dsimp only at h
          split at h
          · exact good_mergeDenseAny h
          · obtain ⟨_, -, h⟩ := bind_ok h; cases h; exact goodTag_make _

theorem good_mergeAll {s : TOptState} {g : TGate} {is : List Nat} {r : TOptState × TGate} (hs : GoodOpt s) (hg : GoodTag g)
    (h : s.mergeAll g is = .ok r) : GoodOpt r.1 ∧ GoodTag r.2 := by
  refine good_foldlM (P := fun r : TOptState × TGate => GoodOpt r.1 ∧ GoodTag r.2) (fun b i b' hb hf => ?_) is (b := (s, g)) ⟨hs, hg⟩ h
  obtain ⟨p, hp, hf⟩ := bind_ok hf
  obtain ⟨r, hr, hf⟩ := bind_ok hf
  cases hf
  exact ⟨hb.1, good_mergeTagged (hb.1.2 p (elemAt_mem' hp)) hb.2 hr⟩

theorem good_mergeable {s s' : TOptState} {mb : Nat} {g : TGate} (hs : GoodOpt s) (hg : GoodTag g) (h : s.mergeable mb g = .ok s') : GoodOpt s' := by
  unfold TOptState.mergeable at h
  obtain ⟨is, -, h⟩ := bind_ok h
  split at h
  · exact good_wait hs hg h
  · obtain ⟨m, -, h⟩ := bind_ok h
    split at h
    · obtain ⟨r, hr, h⟩ := bind_ok h
      obtain ⟨h1, h2⟩ := good_mergeAll hs hg hr
      exact good_wait h1 h2 h
    · obtain ⟨s1, h1, h⟩ := bind_ok h
      exact good_wait (good_pushAll hs h1) hg h

theorem good_pushItem {s s' : TOptState} {g : TItem} {c : Option Condition} (hs : GoodOpt s) (hg : GoodItem g) (h : s.pushItem g c = .ok s') :
    GoodOpt s' := by
  obtain ⟨is, -, h⟩ := bind_ok h
  obtain ⟨s1, h1, h⟩ := bind_ok h
  exact good_push (good_pushAll hs h1) hg h

theorem good_step {s s' : TOptState} {mb : Nat} {g : TItem} {c : Option Condition} (hs : GoodOpt s) (hg : GoodItem g) (h : s.step mb c g = .ok s') :
    GoodOpt s' := by
  unfold TOptState.step at h
  split at h
  · split at h
    · exact good_pushItem hs hg h
    · split at h
      · cases h; exact hs
      · obtain ⟨p, -, h⟩ := bind_ok h
        cases p with
        | some φ => cases h; exact hs
        | none => exact good_mergeable hs hg h
  · exact good_pushItem hs hg h

theorem mapM_elemAt_mem {α : Type} {l : List α} : ∀ {is : List Nat} {r : List α}, is.mapM (elemAt l) = .ok r → ∀ a ∈ r, a ∈ l
  | [], r, h => by cases h; simp
  | i :: is, r, h => by
    rw [List.mapM_cons] at h
    obtain ⟨a, ha, h⟩ := bind_ok h
    obtain ⟨as, has, h⟩ := bind_ok h
    cases h
    intro b hb
    rcases List.mem_cons.1 hb with rfl | hb
    · exact elemAt_mem' ha
    · exact mapM_elemAt_mem has b hb

theorem good_finish {s s' : TOptState} (hs : GoodOpt s) (h : s.finish = .ok s') : GoodOpt s' := by
  unfold TOptState.finish at h
  obtain ⟨gs, hgs, h⟩ := bind_ok h
  have h1 : GoodOpt { s with gates := s.gates ++ gs.map .inl, conds := s.conds ++ gs.map (fun _ => none) } := by
    refine ⟨fun g hg => ?_, hs.2⟩
    rcases List.mem_append.1 hg with hg | hg
    · exact hs.1 g hg
    · obtain ⟨u, hu, rfl⟩ := List.mem_map.1 hg
      exact hs.2 u (mapM_elemAt_mem hgs u hu)
  dsimp only at h
  split at h
  · obtain ⟨g, -, h⟩ := bind_ok h
    exact good_push h1 (show GoodItem (.inl _) from goodTag_make _) h
  · cases h; exact h1

theorem good_optimize {C : TCircuit} (hC : GoodCircuit C) {mb : Nat} {r : TCircuit × List (TGate × TGate)} (h : C.optimize mb = .ok r) :
    GoodCircuit r.1 := by
  obtain ⟨s1, h1, h⟩ := bind_ok h
  obtain ⟨s2, h2, h⟩ := bind_ok h
  cases h
  have hg : GoodOpt s1 := by
    unfold TCircuit.optLoop at h1
    refine good_foldlM (fun b i b' hb hf => ?_) _ (b := ⟨[], [], 0, [], List.replicate C.plain.requiredQubits none, []⟩)
      ⟨by simp, by simp⟩ h1
    obtain ⟨g, hg, hf⟩ := bind_ok hf
    obtain ⟨c, -, hf⟩ := bind_ok hf
    exact good_step hb (hC g (elemAt_mem' hg)) hf
  exact (good_finish hg h2).1

end Verif.Proofs
