import Verif.Proofs.NoisePaths

/-! # The alternatives of an entry of a circuit -/

namespace Verif.Proofs
open Verif Verif.Spec Verif.Model
attribute [-simp] BitVec.getLsbD_eq_getElem

/-- not a measurement -/
def NotMeasure (i : Instr) : Prop := ∀ q c r, i ≠ .measure q c r

theorem weights_of {G : Type} {t : ProbTable G} (h : TableOK t) : WeightsOK t.dist := by
  refine ⟨h.nonneg, ?_⟩
  have := abs_le.1 h.sum
  have h2 : (1 : ℝ) / 10 ^ 6 < 1 := by norm_num
  linarith [this.1]

theorem weights_one : WeightsOK [1] := ⟨by simp, by simp⟩

theorem offers_of {i : Instr} {g : Item} (hb : i.build = .ok g) (hok : i.OK) {n : Nat} (hn : n < 64)
    (hq : ∀ q ∈ i.qubits, q < n) {θ : String → Option ℝ} (hk : ∀ k, i.key? = some k → ∃ t, θ k = some t) (hm : NotMeasure i) :
    Offers n θ i g ∧ i.weights.length = (i.alternatives θ).length := by
  cases i with
  | gate d =>
    obtain ⟨u, hu, hb⟩ := bind_ok (show (do let g ← d.build; pure (Sum.inl (Gate.det g))) = .ok g from hb)
    cases hb
    refine ⟨⟨⟨[1], [.inl u], rfl, weights_one, rfl, ?_⟩⟩, rfl⟩
    intro k hk
    obtain rfl : k = 0 := by simpa [Instr.alternatives] using hk
    exact ⟨.inl u, rfl, altIs_gate hok hu hn hq θ⟩
  | choice ps ds =>
    obtain ⟨gs, hgs, hb⟩ := bind_ok (show (do
      let gs ← ds.mapM GateDesc.build
      let g ← mkProbabilistic (ps.map some) (gs.map .det)
      pure (Sum.inl g)) = .ok g from hb)
    obtain ⟨g, hg, hb⟩ := bind_ok hb
    cases hb
    obtain ⟨t, ht, hg⟩ := bind_ok (show (do
      let t ← mkProbTable (ps.map some) ((gs.map Gate.det).map Gate.component)
      pure (Gate.prob t)) = .ok g from hg)
    cases hg
    rw [List.map_map, show Gate.component ∘ Gate.det = Component.leaf from rfl] at ht
    obtain ⟨hok', rfl, rfl⟩ := mkProbTable_leaf ht
    obtain ⟨hl, hget⟩ := mapM_get GateDesc.build hgs
    refine ⟨⟨⟨t.dist, t.gates.map .inl, rfl, weights_of hok', ?_, ?_⟩⟩, ?_⟩
    · rw [hok'.len, hl]; rfl
    · intro k hk
      obtain ⟨u, hu, hbu⟩ := hget k _ (List.getElem?_eq_getElem (show k < ds.length from hk))
      refine ⟨.inl u, by rw [List.getElem?_map, hu]; rfl, ?_⟩
      exact altIs_gate (hok _ (List.getElem_mem hk)) hbu hn (fun q hh => hq q (List.mem_flatMap.2 ⟨_, List.getElem_mem hk, hh⟩)) θ
    · show t.dist.length = ds.length
      rw [hok'.len, hl]
  | measure q c r => exact absurd rfl (hm q c r)
  | rot r key =>
    obtain ⟨p, hp, hb⟩ := bind_ok (show (do let p ← r.build; pure (Sum.inr (PGate.rot p, key))) = .ok g from hb)
    cases hb
    obtain ⟨t, ht⟩ := hk key rfl
    have ha : (Instr.rot r key).alternatives θ = [r.at t] := by simp [Instr.alternatives, ht]
    refine ⟨⟨⟨[1], [.inr (p, key)], rfl, weights_one, by rw [ha]; rfl, ?_⟩⟩, by rw [ha]; rfl⟩
    rw [ha]
    intro k hk
    obtain rfl : k = 0 := by simpa using hk
    exact ⟨.inr (p, key), rfl, altIs_rot hp hn hq ht⟩
  | pchoice ps ls key =>
    obtain ⟨gs, hgs, hb⟩ := bind_ok (show (do
      let gs ← ls.mapM LeafDesc.build
      let p ← mkParamProbabilistic (ps.map some) gs
      pure (Sum.inr (p, key))) = .ok g from hb)
    obtain ⟨p, hpb, hb⟩ := bind_ok hb
    cases hb
    obtain ⟨tb, htb, hpb⟩ := bind_ok (show (do
      let t ← mkProbTable (ps.map some) (gs.map eitherComponent)
      pure (PGate.prob t)) = .ok p from hpb)
    cases hpb
    obtain ⟨us, hus, he⟩ := leaves_build hgs
    rw [he] at htb
    obtain ⟨hok', rfl, rfl⟩ := mkProbTable_leaf htb
    obtain ⟨hl, hget⟩ := mapM_get leafOf hus
    obtain ⟨t, ht⟩ := hk key rfl
    have ha : (Instr.pchoice tb.dist ls key).alternatives θ = ls.map (·.at t) := by simp [Instr.alternatives, ht]
    refine ⟨⟨⟨tb.dist, tb.gates.map (leafAlt key), rfl, weights_of hok', by rw [ha, hok'.len, hl, List.length_map], ?_⟩⟩, ?_⟩
    · rw [ha]
      intro k hk
      rw [List.length_map] at hk
      rw [List.getElem_map]
      obtain ⟨u, hu, hbu⟩ := hget k _ (List.getElem?_eq_getElem hk)
      refine ⟨leafAlt key u, by rw [List.getElem?_map, hu]; rfl, ?_⟩
      have hqk : ∀ q ∈ qubitsOf (ls[k].at 0), q < n := fun q hh => hq q (List.mem_flatMap.2 ⟨_, List.getElem_mem hk, hh⟩)
      have hokk : ls[k].OK := hok _ (List.getElem_mem hk)
      generalize ls[k] = l at hbu hqk hokk
      cases l with
      | fixed d =>
        obtain ⟨w, hw, hbu⟩ := bind_ok (show (do let g ← d.build; pure (PLeaf.fixed g)) = .ok u from hbu)
        cases hbu
        exact altIs_gate hokk hw hn hqk θ
      | rot r =>
        obtain ⟨w, hw, hbu⟩ := bind_ok (show (do let g ← r.build; pure (PLeaf.rot g)) = .ok u from hbu)
        cases hbu
        exact altIs_rot hw hn hqk ht
    · rw [ha, List.length_map]
      show tb.dist.length = ls.length
      rw [hok'.len, hl]

theorem weights_built {i : Instr} {g : Item} (hb : i.build = .ok g) (hm : NotMeasure i) : WeightsOK i.weights := by
  cases i with
  | gate d => exact weights_one
  | choice ps ds =>
    obtain ⟨gs, hgs, hb⟩ := bind_ok (show (do
      let gs ← ds.mapM GateDesc.build
      let g ← mkProbabilistic (ps.map some) (gs.map .det)
      pure (Sum.inl g)) = .ok g from hb)
    obtain ⟨g, hg, hb⟩ := bind_ok hb
    obtain ⟨t, ht, hg⟩ := bind_ok (show (do
      let t ← mkProbTable (ps.map some) ((gs.map Gate.det).map Gate.component)
      pure (Gate.prob t)) = .ok g from hg)
    rw [List.map_map, show Gate.component ∘ Gate.det = Component.leaf from rfl] at ht
    obtain ⟨hok', rfl, rfl⟩ := mkProbTable_leaf ht
    exact weights_of hok'
  | measure q c r => exact absurd rfl (hm q c r)
  | rot r key => exact weights_one
  | pchoice ps ls key =>
    obtain ⟨gs, hgs, hb⟩ := bind_ok (show (do
      let gs ← ls.mapM LeafDesc.build
      let p ← mkParamProbabilistic (ps.map some) gs
      pure (Sum.inr (p, key))) = .ok g from hb)
    obtain ⟨p, hpb, hb⟩ := bind_ok hb
    obtain ⟨tb, htb, hpb⟩ := bind_ok (show (do
      let t ← mkProbTable (ps.map some) (gs.map eitherComponent)
      pure (PGate.prob t)) = .ok p from hpb)
    obtain ⟨us, hus, he⟩ := leaves_build hgs
    rw [he] at htb
    obtain ⟨hok', rfl, rfl⟩ := mkProbTable_leaf htb
    exact weights_of hok'

theorem slot_restrict {n : Nat} (hn : n < 64) (ψ junk : U64 → ℂ) : slotOf n 0 (putSlot n 0 ψ junk) = restrict n ψ :=
  slotOf_putSlot_same (B := 1) (one_fits hn) (by norm_num) ψ junk

theorem noise_start {n : Nat} (hn : n < 64) (θ : String → Option ℝ) (ψ junk : U64 → ℂ) (shots : Nat) (draws : Nat → Nat) :
    NoiseInv n θ [] (restrict n ψ) shots draws ⟨1, putSlot n 0 ψ junk, [shots], 0⟩ [[]] (List.replicate shots []) where
  size := rfl
  counts := by simp
  nodup := by simp
  mem := by simp
  mem' := by
    intro h p hp
    simp at hp
    subst hp
    simp at h ⊢
    exact h
  total := by simp
  len := by simp
  layers := by simp
  pos := by simp
  state := by
    intro b hb
    obtain rfl : b = 0 := by simpa using hb
    dsimp only
    rw [slot_restrict hn]
    exact .nil _

theorem toInt64_small {c : Nat} (h : c < 2 ^ 63) : toInt64 c = c := by
  unfold toInt64
  rw [BitVec.toInt_eq_toNat_of_lt]
  · rw [BitVec.toNat_ofNat, Nat.mod_eq_of_lt (by omega)]
  · rw [BitVec.toNat_ofNat, Nat.mod_eq_of_lt (by omega)]; omega

theorem noise_result {n : Nat} {θ : String → Option ℝ} {ls : List Line} {ψ : U64 → ℂ} {shots : Nat} {draws : Nat → Nat}
    {s : NoiseState} {labels paths : List (List Nat)} (h : NoiseInv n θ ls (restrict n ψ) shots draws s labels paths)
    (hs : shots < 2 ^ 63) : ∃ res, s.result n = .ok res ∧ paths.length = shots ∧ FromDraws draws shots ls.length paths ∧
      Reports n θ ls ψ paths res := by
  refine ⟨(List.range s.size).map fun i => (slotOf n i s.psi, (paths.count (lab labels i) : Int)), ?_, h.total,
    ⟨fun p hp => h.len p (h.mem p hp), h.layers⟩, ⟨⟨labels, h.nodup, h.mem, h.mem', ?_⟩⟩⟩
  · unfold NoiseState.result
    refine mapM_ok _ _ _ fun i hi => ?_
    have hi : i < labels.length := by rw [h.size]; exact List.mem_range.1 hi
    have : s.counts[i]? = some (paths.count (lab labels i)) := by
      rw [h.counts, List.getElem?_map, List.getElem?_eq_getElem hi, lab_eq hi]; rfl
    rw [this]
    dsimp only
    rw [toInt64_small (lt_of_le_of_lt (List.count_le_length.trans h.total.le) hs)]
  · rw [List.forall₂_iff_get]
    refine ⟨by simp [h.size], fun i h1 h2 => ?_⟩
    simp only [List.get_eq_getElem, List.getElem_map, List.getElem_range]
    rw [← lab_eq h1]
    exact ⟨h.state i h1, rfl⟩

/-- one entry per line -/
theorem offers_all {ls : List Line} {gs : List Item} (hb : ls.mapM (fun l => l.instr.build) = .ok gs) (hok : ∀ l ∈ ls, l.instr.OK)
    {n : Nat} (hn : n < 64) (hq : ∀ l ∈ ls, ∀ q ∈ l.instr.qubits, q < n) {θ : String → Option ℝ}
    (hk : ∀ l ∈ ls, ∀ k, l.instr.key? = some k → ∃ t, θ k = some t) (hm : ∀ l ∈ ls, NotMeasure l.instr) :
    List.Forall₂ (fun l g => Offers n θ l.instr g) ls gs ∧ ∀ l ∈ ls, l.instr.weights.length = (l.instr.alternatives θ).length := by
  induction ls generalizing gs with
  | nil => cases hb; exact ⟨.nil, by simp⟩
  | cons l ls ih =>
    rw [List.mapM_cons] at hb
    obtain ⟨g, hg, hb⟩ := bind_ok hb
    obtain ⟨gs', hgs, hb⟩ := bind_ok hb
    cases hb
    obtain ⟨h1, h2⟩ := offers_of hg (hok l List.mem_cons_self) hn (hq l List.mem_cons_self) (hk l List.mem_cons_self)
      (hm l List.mem_cons_self)
    obtain ⟨h3, h4⟩ := ih hgs (fun l hl => hok l (List.mem_cons_of_mem _ hl)) (fun l hl => hq l (List.mem_cons_of_mem _ hl))
      (fun l hl => hk l (List.mem_cons_of_mem _ hl)) (fun l hl => hm l (List.mem_cons_of_mem _ hl))
    refine ⟨.cons h1 h3, fun l' hl => ?_⟩
    rcases List.mem_cons.1 hl with rfl | hl
    · exact h2
    · exact h4 l' hl

end Verif.Proofs
