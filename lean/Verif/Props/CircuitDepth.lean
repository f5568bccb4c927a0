import Verif.Proofs.Depth
import Verif.Props.Circuit

/-! # C42: depth of a circuit -/

namespace Verif.Props
open Verif Verif.Spec Verif.Model Verif.Proofs
attribute [-simp] BitVec.getLsbD_eq_getElem

/-- **C42.** `calculate_depth()` is the length of a longest chain of gates in which each shares a qubit with the next.
Missing: circuits with random choices, for which it throws (`C42_throws`). -/
theorem C42_depth_partial {ls : List Line} {C : Circuit} (hb : buildCircuit ls = .ok C) (ha : ∀ l ∈ ls, l.instr.OK)
    (hf : ∀ l ∈ ls, Instr.Fixed l.instr) : ∃ d, C.depth = .ok d ∧ IsDepth (ls.map fun l => l.instr.qubits) d := by
  obtain ⟨gs, hgs, rfl⟩ := buildCircuit_ok hb
  have hq := (required_spec hgs ha (ls.map (·.cond)) _).1 le_rfl
  unfold Circuit.depth
  dsimp only
  by_cases h0 : Circuit.requiredQubits ⟨gs, ls.map (·.cond)⟩ = 0
  · rw [if_pos h0]
    rw [h0] at hq
    refine ⟨0, rfl, ⟨[], ⟨List.nil_sublist _, by simp, by simp⟩, rfl⟩, fun c hc => ?_⟩
    cases c with
    | nil => exact le_rfl
    | cons a c =>
      have hm := hc.sub.subset (List.mem_cons_self (a := a) (l := c))
      obtain ⟨l, hl, rfl⟩ := List.mem_map.1 hm
      have := hc.nonempty _ List.mem_cons_self
      obtain ⟨q, hqm⟩ := List.exists_mem_of_ne_nil _ this
      exact absurd (hq l hl q hqm) (by omega)
  · rw [if_neg h0]
    generalize Circuit.requiredQubits ⟨gs, ls.map (·.cond)⟩ = N at *
    obtain ⟨F, hr, hl, hinv⟩ := depth_loop hgs ha hf hq (F := List.replicate N 0) (P := []) (by simp) (by
      intro q v hqN hv
      rw [List.getElem?_replicate, if_pos hqN] at hv
      cases hv
      refine ⟨Or.inl rfl, fun c a hc _ => ?_⟩
      have := hc.sub.length_le
      simp at this)
    rw [hr, ok_bind]
    rw [List.nil_append] at hinv
    cases hmax : F.max? with
    | none =>
      rw [List.max?_eq_none_iff] at hmax
      subst hmax
      simp at hl
      omega
    | some d =>
      obtain ⟨hd1, hd2⟩ := List.max?_eq_some_iff.1 hmax
      refine ⟨d, rfl, ?_, ?_⟩
      · obtain ⟨q, hlt, hget⟩ := List.getElem_of_mem hd1
        rcases (hinv q d (hl ▸ hlt) (by rw [List.getElem?_eq_getElem hlt, hget])).1 with rfl | ⟨c, a, hc, -, hlen⟩
        · exact ⟨[], ⟨List.nil_sublist _, by simp, by simp⟩, rfl⟩
        · exact ⟨_, hc, hlen⟩
      · intro c hc
        rcases List.eq_nil_or_concat c with rfl | ⟨c', b, rfl⟩
        · simp
        · rw [List.concat_eq_append] at hc ⊢
          have hm := hc.sub.subset (show b ∈ c' ++ [b] by simp)
          obtain ⟨l, hlm, rfl⟩ := List.mem_map.1 hm
          obtain ⟨q, hqm⟩ := List.exists_mem_of_ne_nil _ (hc.nonempty (Instr.qubits l.instr) (by simp))
          have hqN := hq l hlm q hqm
          have hlt : q < F.length := hl ▸ hqN
          have := (hinv q F[q] hqN (List.getElem?_eq_getElem hlt)).2 c' _ hc hqm
          exact le_trans this (hd2 _ (List.getElem_mem hlt))

/-- **C42.** The depth is at most the number of gates. -/
theorem C42_at_most {ls : List Line} {C : Circuit} (hb : buildCircuit ls = .ok C) (ha : ∀ l ∈ ls, l.instr.OK)
    (hf : ∀ l ∈ ls, Instr.Fixed l.instr) {d : Nat} (hd : C.depth = .ok d) : d ≤ C.gates.length := by
  obtain ⟨d', h1, h2⟩ := C42_depth_partial hb ha hf
  rw [hd] at h1
  cases h1
  obtain ⟨gs, hgs, rfl⟩ := buildCircuit_ok hb
  obtain ⟨c, hc, rfl⟩ := h2.attained
  have := hc.sub.length_le
  rw [List.length_map] at this
  rw [(mapM_get _ hgs).1]
  exact this

/-- **C42 (negation).** A circuit on at least one qubit that contains a random choice has no computable depth: the call throws. -/
theorem C42_throws {ls : List Line} {C : Circuit} (hb : buildCircuit ls = .ok C) (ha : ∀ l ∈ ls, l.instr.OK)
    (hf : ∃ l ∈ ls, ¬ Instr.Fixed l.instr) (hq : ∃ l ∈ ls, l.instr.qubits ≠ []) : ∃ e, C.depth = .error (.throw e) := by
  obtain ⟨gs, hgs, rfl⟩ := buildCircuit_ok hb
  have hall := (required_spec hgs ha (ls.map (·.cond)) _).1 le_rfl
  unfold Circuit.depth
  dsimp only
  rw [if_neg]
  · obtain ⟨e, he⟩ := depth_throws hgs ha hf hall (F := List.replicate (Circuit.requiredQubits ⟨gs, ls.map (·.cond)⟩) 0) (by simp)
    exact ⟨e, by rw [he]; rfl⟩
  · intro h0
    obtain ⟨l, hl, hne⟩ := hq
    obtain ⟨q, hqm⟩ := List.exists_mem_of_ne_nil _ hne
    have := hall l hl q hqm
    omega

/-- the sample circuit has depth 3: H, measurement and rotation on qubit 0 -/
example : ∃ C, buildCircuit sampleLines = .ok C ∧ (∀ l ∈ sampleLines, l.instr.OK) ∧ (∀ l ∈ sampleLines, Instr.Fixed l.instr) ∧
    IsDepth (sampleLines.map fun l => l.instr.qubits) 3 := by
  obtain ⟨C, hC⟩ := sampleLines_of
  refine ⟨C, hC.built, hC.args, ?_, ?_, ?_⟩
  · intro l hl
    simp only [sampleLines, List.mem_cons, List.not_mem_nil, or_false] at hl
    rcases hl with rfl | rfl | rfl | rfl <;> trivial
  · refine ⟨[[0], [0], [0]], ⟨?_, by simp, by simp⟩, rfl⟩
    simp only [sampleLines, List.map_cons, List.map_nil, Instr.qubits, qubitsOf, targetsOf, controlsOf, ctrlList, RotDesc.at, List.zip_nil_left,
      effectiveValues]
    decide
  · intro c hc
    have hs := hc.sub
    simp only [sampleLines, List.map_cons, List.map_nil, Instr.qubits, qubitsOf, targetsOf, controlsOf, ctrlList, RotDesc.at,
      List.zip_nil_left, effectiveValues, List.append_nil, List.cons_append, List.nil_append] at hs
    by_contra hlt
    have h4 : c = [[0], [0], [1], [0]] := hs.eq_of_length_le (by simp; omega)
    subst h4
    have := hc.linked
    simp at this

/-- a bit-flip channel -/
example : ∃ C, buildCircuit [⟨.choice [1 / 2, 1 / 2] [.one .X 0 [] [], .ident], none⟩] = .ok C := by
  refine buildCircuit_of fun l hl => ?_
  simp only [List.mem_singleton] at hl
  subst hl
  obtain ⟨g, hg⟩ := build_one .X (q := 0) (cs := []) (vs := []) (by norm_num) (by simp) (by simp) (by simp) rfl (by simp [effectiveValues])
  obtain ⟨p, hp⟩ := (C36_accepts [some (1 / 2), some (1 / 2)] [g, .ident]).1.2
    ⟨[1 / 2, 1 / 2], rfl, by simp, rfl, by simp; norm_num, by norm_num⟩
  refine ⟨.inl p, ?_⟩
  show (do
      let gs ← [GateDesc.one .X 0 [] [], .ident].mapM GateDesc.build
      let g ← mkProbabilistic ([1 / 2, 1 / 2].map some) (gs.map .det)
      pure (Sum.inl g) : Res Item) = _
  have hm : [GateDesc.one .X 0 [] [], .ident].mapM GateDesc.build = .ok [g, .ident] := by
    rw [List.mapM_cons, hg]; rfl
  rw [hm, ok_bind]
  show (do let g ← mkProbabilistic [some (1 / 2), some (1 / 2)] ([g, .ident].map .det); pure (Sum.inl g) : Res Item) = _
  rw [hp]; rfl

end Verif.Props
