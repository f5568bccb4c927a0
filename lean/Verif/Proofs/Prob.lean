import Verif.Proofs.Measure

/-! # Probabilistic gates: construction and selection -/

namespace Verif.Proofs
open Verif Verif.Spec Verif.Model
attribute [-simp] BitVec.getLsbD_eq_getElem
variable {G : Type}

theorem mapM_get {α β : Type} (f : α → Res β) {l : List α} {us : List β} (h : l.mapM f = .ok us) :
    us.length = l.length ∧ ∀ (i : Nat) (a : α), l[i]? = some a → ∃ b, us[i]? = some b ∧ f a = .ok b := by
  induction l generalizing us with
  | nil => cases h; exact ⟨rfl, fun i a h => by simp at h⟩
  | cons x l ih =>
    rw [List.mapM_cons] at h
    obtain ⟨u, hu, h⟩ := bind_ok h
    obtain ⟨us', hus', h⟩ := bind_ok h
    cases h
    obtain ⟨h1, h2⟩ := ih hus'
    refine ⟨by simp [h1], fun i a hi => ?_⟩
    cases i with
    | zero => rw [List.getElem?_cons_zero] at hi; cases hi; exact ⟨u, rfl, hu⟩
    | succ i => rw [List.getElem?_cons_succ] at hi; exact h2 i a hi

/-- what every constructed table satisfies -/
structure TableOK (t : ProbTable G) : Prop where
  len : t.dist.length = t.gates.length
  pos : t.gates ≠ []
  nonneg : ∀ p ∈ t.dist, 0 ≤ p
  cum : t.cum = t.dist.scanl (· + ·) 0
  sum : |t.dist.sum - 1| ≤ 1 / 10 ^ 6

/-- a component that was built by the constructors -/
def CompOK : Component G → Prop
  | .leaf _ => True
  | .nested t => TableOK t
  | .measurement => True

/-- the flattened alternatives of a component -/
noncomputable def flatOf (p : ℝ) : Component G → List (ℝ × G)
  | .leaf g => [(p, g)]
  | .nested t => (t.dist.zip t.gates).map fun x => (p * x.1, x.2)
  | .measurement => []

noncomputable def flatAll (ps : List ℝ) (cs : List (Component G)) : List (ℝ × G) :=
  (ps.zip cs).flatMap fun x => flatOf x.1 x.2

theorem flattenAll_ok {ps : List ℝ} {cs : List (Component G)} (hl : ps.length = cs.length) (hc : ∀ c ∈ cs, CompOK c)
    (hm : Component.measurement ∉ cs) : flattenAll ps cs = .ok (flatAll ps cs) := by
  induction cs generalizing ps with
  | nil => cases ps <;> simp_all [flattenAll, flatAll]
  | cons c cs ih =>
    cases ps with
    | nil => simp at hl
    | cons p ps =>
      have h1 := ih (ps := ps) (by simpa using hl) (fun x hx => hc x (List.mem_cons_of_mem _ hx))
        (fun h => hm (List.mem_cons_of_mem _ h))
      have h2 : flattenGate p c = .ok (flatOf p c) := by
        have := hc c (List.mem_cons_self ..)
        cases c with
        | leaf g => rfl
        | nested t =>
          exact if_pos (le_of_eq (show TableOK t from this).len)
        | measurement => exact absurd (List.mem_cons_self ..) hm
      unfold flattenAll
      rw [h2, ok_bind, h1, ok_bind]
      rfl

theorem flattenAll_meas {ps : List ℝ} {cs : List (Component G)} (hl : ps.length = cs.length) (hc : ∀ c ∈ cs, CompOK c)
    (hm : Component.measurement ∈ cs) : ∃ e, flattenAll ps cs = .error (.throw e) := by
  induction cs generalizing ps with
  | nil => simp at hm
  | cons c cs ih =>
    cases ps with
    | nil => simp at hl
    | cons p ps =>
      unfold flattenAll
      rcases c with g | t | _
      · have hm' : Component.measurement ∈ cs := by simpa using hm
        obtain ⟨e, he⟩ := ih (ps := ps) (by simpa using hl) (fun x hx => hc x (List.mem_cons_of_mem _ hx)) hm'
        unfold flattenGate
        rw [ok_bind, he]
        exact ⟨e, rfl⟩
      · have hm' : Component.measurement ∈ cs := by simpa using hm
        obtain ⟨e, he⟩ := ih (ps := ps) (by simpa using hl) (fun x hx => hc x (List.mem_cons_of_mem _ hx)) hm'
        have h2 : flattenGate p (.nested t) = .ok (flatOf p (.nested t)) :=
          if_pos (le_of_eq (show TableOK t from hc _ (List.mem_cons_self ..)).len)
        rw [h2, ok_bind, he]
        exact ⟨e, rfl⟩
      · exact ⟨_, rfl⟩

theorem checkProbabilities_ok {ps : List ℝ} (h : ∀ p ∈ ps, 0 ≤ p ∧ p ≤ 1) : checkProbabilities (ps.map some) = .ok ps := by
  induction ps with
  | nil => rfl
  | cons p ps ih =>
    have hp := h p (List.mem_cons_self ..)
    rw [List.map_cons, checkProbabilities, if_neg (by push Not; exact ⟨hp.1, hp.2⟩),
      ih fun x hx => h x (List.mem_cons_of_mem _ hx), ok_bind]
    rfl

theorem checkProbabilities_bad {ds : List (Option ℝ)} (h : ¬ ∃ ps : List ℝ, ds = ps.map some ∧ ∀ p ∈ ps, 0 ≤ p ∧ p ≤ 1) :
    ∃ e, checkProbabilities ds = .error (.throw e) := by
  induction ds with
  | nil => exact absurd ⟨[], rfl, by simp⟩ h
  | cons d ds ih =>
    cases d with
    | none => exact ⟨_, rfl⟩
    | some p =>
      unfold checkProbabilities
      by_cases hp : p < 0 ∨ p > 1
      · rw [if_pos hp]; exact ⟨_, rfl⟩
      · rw [if_neg hp]
        obtain ⟨e, he⟩ := ih (by
          rintro ⟨ps, rfl, hps⟩
          refine h ⟨p :: ps, rfl, ?_⟩
          intro x hx
          rcases List.mem_cons.1 hx with rfl | hx
          · push Not at hp; exact hp
          · exact hps x hx)
        rw [he]
        exact ⟨e, rfl⟩

theorem getLast_scanl (l : List ℝ) : (l.scanl (· + ·) 0).getLast? = some l.sum := by
  rw [List.getLast?_eq_getElem?, List.length_scanl, Nat.add_sub_cancel, List.getElem?_scanl, if_pos le_rfl, List.take_length,
    List.sum_eq_foldl]

theorem mkProbTable_some {ps : List ℝ} {cs : List (Component G)} (h0 : ps ≠ []) (hl : ps.length = cs.length)
    (h1 : ∀ p ∈ ps, 0 ≤ p ∧ p ≤ 1) (hc : ∀ c ∈ cs, CompOK c) (hm : Component.measurement ∉ cs) :
    mkProbTable (ps.map some) cs = if |((flatAll ps cs).map (·.1)).sum - 1| > 1 / 10 ^ 6 then
      .error (.throw "Sum of distribution must be equal to 1.")
      else .ok ⟨(flatAll ps cs).map (·.1), ((flatAll ps cs).map (·.1)).scanl (· + ·) 0, (flatAll ps cs).map (·.2)⟩ := by
  unfold mkProbTable
  rw [List.length_map, if_neg (by simpa using h0), if_neg (by simpa using hl), checkProbabilities_ok h1, ok_bind,
    flattenAll_ok hl hc hm, ok_bind]
  dsimp only
  rw [getLast_scanl]
  rfl

/-- the constructor accepts exactly the well-formed arguments and otherwise throws -/
theorem mkProbTable_iff {ds : List (Option ℝ)} {cs : List (Component G)} (hc : ∀ c ∈ cs, CompOK c) :
    (∀ t, mkProbTable ds cs = .ok t ↔ ∃ ps : List ℝ, ds = ps.map some ∧ ps ≠ [] ∧ ps.length = cs.length ∧
      (∀ p ∈ ps, 0 ≤ p ∧ p ≤ 1) ∧ Component.measurement ∉ cs ∧ |((flatAll ps cs).map (·.1)).sum - 1| ≤ 1 / 10 ^ 6 ∧
      t = ⟨(flatAll ps cs).map (·.1), ((flatAll ps cs).map (·.1)).scanl (· + ·) 0, (flatAll ps cs).map (·.2)⟩) ∧
    ((∀ t, mkProbTable ds cs ≠ .ok t) → ∃ e, mkProbTable ds cs = .error (.throw e)) := by
  by_cases h0 : ds.length = 0
  · have e : mkProbTable ds cs = .error (.throw "At least one gate is required.") := by
      unfold mkProbTable; rw [if_pos h0]
    rw [e]
    refine ⟨fun t => ⟨fun h => (by cases h), ?_⟩, fun _ => ⟨_, rfl⟩⟩
    rintro ⟨ps, rfl, hp, -⟩
    exact absurd (by simpa using h0) hp
  by_cases hl : ds.length ≠ cs.length
  · have e : mkProbTable ds cs = .error (.throw "distribution and gate_list have different size.") := by
      unfold mkProbTable; rw [if_neg h0, if_pos hl]
    rw [e]
    refine ⟨fun t => ⟨fun h => (by cases h), ?_⟩, fun _ => ⟨_, rfl⟩⟩
    rintro ⟨ps, rfl, hp, hl', -⟩
    exact absurd (by simpa using hl') hl
  push Not at hl
  by_cases hps : ∃ ps : List ℝ, ds = ps.map some ∧ ∀ p ∈ ps, 0 ≤ p ∧ p ≤ 1
  · obtain ⟨ps, rfl, h1⟩ := hps
    have h0' : ps ≠ [] := by rintro rfl; exact h0 rfl
    have hl' : ps.length = cs.length := by simpa using hl
    by_cases hm : Component.measurement ∈ cs
    · obtain ⟨e, he⟩ := flattenAll_meas hl' hc hm
      have e2 : mkProbTable (ps.map some) cs = .error (.throw e) := by
        unfold mkProbTable
        rw [if_neg h0, if_neg (by simpa using hl), checkProbabilities_ok h1, ok_bind, he]; rfl
      rw [e2]
      refine ⟨fun t => ⟨fun h => (by cases h), ?_⟩, fun _ => ⟨_, rfl⟩⟩
      rintro ⟨_, _, _, _, _, hm', _⟩
      exact absurd hm hm'
    · rw [mkProbTable_some h0' hl' h1 hc hm]
      by_cases hsum : |((flatAll ps cs).map (·.1)).sum - 1| > 1 / 10 ^ 6
      · rw [if_pos hsum]
        refine ⟨fun t => ⟨fun h => (by cases h), ?_⟩, fun _ => ⟨_, rfl⟩⟩
        rintro ⟨ps', hp, _, _, _, _, hs, _⟩
        have : ps = ps' := (List.map_injective_iff.2 (Option.some_injective _)) hp
        subst this
        exact absurd hs (not_le.2 hsum)
      · rw [if_neg hsum]
        refine ⟨fun t => ⟨fun h => ?_, ?_⟩, fun h => absurd rfl (h _)⟩
        · cases h
          exact ⟨ps, rfl, h0', hl', h1, hm, not_lt.1 hsum, rfl⟩
        · rintro ⟨ps', hp, _, _, _, _, hs, rfl⟩
          have : ps = ps' := (List.map_injective_iff.2 (Option.some_injective _)) hp
          subst this
          rfl
  · obtain ⟨e, he⟩ := checkProbabilities_bad hps
    have e2 : mkProbTable ds cs = .error (.throw e) := by
      unfold mkProbTable
      rw [if_neg h0, if_neg (by simpa using hl), he]; rfl
    rw [e2]
    refine ⟨fun t => ⟨fun h => (by cases h), ?_⟩, fun _ => ⟨_, rfl⟩⟩
    rintro ⟨ps, hp, _, _, h1, _⟩
    exact absurd ⟨ps, hp, h1⟩ hps

theorem flatOf_nonneg {p : ℝ} (hp : 0 ≤ p) {c : Component G} (hc : CompOK c) : ∀ x ∈ flatOf p c, 0 ≤ x.1 := by
  intro x hx
  cases c with
  | leaf g => simp [flatOf] at hx; rw [hx]; exact hp
  | measurement => simp [flatOf] at hx
  | nested t =>
    obtain ⟨y, hy, rfl⟩ := List.mem_map.1 hx
    exact mul_nonneg hp ((show TableOK t from hc).nonneg _ (List.of_mem_zip hy).1)

theorem flatOf_ne {p : ℝ} {c : Component G} (hc : CompOK c) (hm : c ≠ .measurement) : flatOf p c ≠ [] := by
  cases c with
  | leaf g => simp [flatOf]
  | measurement => exact absurd rfl hm
  | nested t =>
    have ht : TableOK t := hc
    intro h
    have : (t.dist.zip t.gates).length = 0 := by
      have := congrArg List.length h
      simpa [flatOf] using this
    rw [List.length_zip, ht.len, min_self] at this
    exact ht.pos (List.length_eq_zero_iff.1 this)

theorem mkProbTable_tableOK {ds : List (Option ℝ)} {cs : List (Component G)} (hc : ∀ c ∈ cs, CompOK c) {t : ProbTable G}
    (h : mkProbTable ds cs = .ok t) : TableOK t := by
  obtain ⟨ps, rfl, h0, hl, h1, hm, hs, rfl⟩ := ((mkProbTable_iff hc).1 t).1 h
  refine ⟨by simp, ?_, ?_, rfl, hs⟩
  · cases ps with
    | nil => exact absurd rfl h0
    | cons p ps =>
      cases cs with
      | nil => simp at hl
      | cons c cs =>
        have := flatOf_ne (p := p) (hc c (List.mem_cons_self ..)) (fun e => hm (e ▸ List.mem_cons_self ..))
        simp [flatAll, this]
  · intro p hp
    obtain ⟨x, hx, rfl⟩ := List.mem_map.1 hp
    obtain ⟨y, hy, hx⟩ := List.mem_flatMap.1 hx
    have := List.of_mem_zip hy
    exact flatOf_nonneg (h1 _ this.1).1 (hc _ this.2) x hx

/-! ## selection -/

theorem sum_take_mono {l : List ℝ} (h : ∀ p ∈ l, 0 ≤ p) {a b : Nat} (hab : a ≤ b) : (l.take a).sum ≤ (l.take b).sum := by
  rw [← List.take_append_drop a (l.take b), List.sum_append, List.take_take, min_eq_left hab]
  have : 0 ≤ ((l.take b).drop a).sum := List.sum_nonneg fun x hx => h x (List.mem_of_mem_take (List.mem_of_mem_drop hx))
  linarith

theorem cum_get {t : ProbTable G} (ht : TableOK t) {k : Nat} (hk : k < t.cum.length) : t.cum[k] = (t.dist.take k).sum := by
  have h : t.cum[k]? = some (t.dist.take k).sum := by
    have hk' : k ≤ t.dist.length := by rw [ht.cum, List.length_scanl] at hk; omega
    rw [ht.cum, List.getElem?_scanl, if_pos hk', List.sum_eq_foldl]
  rw [List.getElem?_eq_getElem hk] at h
  exact Option.some.inj h

theorem cum_length {t : ProbTable G} (ht : TableOK t) : t.cum.length = t.gates.length + 1 := by
  rw [ht.cum, List.length_scanl, ht.len]

theorem cum_sorted {t : ProbTable G} (ht : TableOK t) : t.cum.Pairwise (· ≤ ·) := by
  rw [List.pairwise_iff_getElem]
  intro i j hi hj hij
  rw [cum_get ht, cum_get ht]
  exact sum_take_mono ht.nonneg hij.le

/-- the draw `r` selects the alternative in whose interval it lies; draws above the total go to the last alternative -/
theorem select_spec {t : ProbTable G} (ht : TableOK t) {r : ℝ} {k : Nat} (hk : k < t.gates.length)
    (h1 : (t.dist.take k).sum ≤ r) (h2 : r < (t.dist.take (k + 1)).sum ∨ k + 1 = t.gates.length) : t.select r = .ok t.gates[k] := by
  have hlen := cum_length ht
  have hd : ∃ d, t.cum.findIdx (fun x => decide (r < x)) = d ∧ k + 1 ≤ d ∧ d ≤ t.gates.length + 1 ∧
      (k + 1 < t.gates.length → d = k + 1) := by
    refine ⟨_, rfl, ?_, ?_, ?_⟩
    · by_contra hlt
      push Not at hlt
      have hlt' : t.cum.findIdx (fun x => decide (r < x)) < t.cum.length := by omega
      have := List.findIdx_getElem (w := hlt')
      rw [cum_get ht] at this
      have hm := sum_take_mono ht.nonneg (show t.cum.findIdx (fun x => decide (r < x)) ≤ k by omega)
      have : r < (t.dist.take (t.cum.findIdx fun x => decide (r < x))).sum := by simpa using this
      linarith
    · rw [← hlen]; exact List.findIdx_le_length
    · intro hk1
      have hr : r < (t.dist.take (k + 1)).sum := by
        rcases h2 with h2 | h2
        · exact h2
        · omega
      rw [List.findIdx_eq (by omega)]
      refine ⟨by rw [cum_get ht]; simpa using hr, fun j hj => ?_⟩
      rw [cum_get ht]
      have := sum_take_mono ht.nonneg (show j ≤ k by omega)
      simp only [decide_eq_false_iff_not, not_lt]
      linarith
  obtain ⟨d, hd, hd1, hd2, hd3⟩ := hd
  have hsel : selectIndex t.cum r = .ok k := by
    unfold selectIndex upperBound
    rw [if_pos (cum_sorted ht), ok_bind, hd]
    unfold sub64
    rw [if_pos (by omega), if_pos (by omega), hlen]
    have : min (d - 1) (t.gates.length + 1 - 2) = k := by
      by_cases hk1 : k + 1 < t.gates.length
      · rw [hd3 hk1]; omega
      · omega
    rw [this]; rfl
  unfold ProbTable.select
  rw [hsel, ok_bind]
  rw [List.getElem?_eq_getElem hk]
  rfl

/-- every draw selects some alternative -/
theorem select_total {t : ProbTable G} (ht : TableOK t) {r : ℝ} (hr : 0 ≤ r) :
    ∃ k, k < t.gates.length ∧ (t.dist.take k).sum ≤ r ∧
      (r < (t.dist.take (k + 1)).sum ∨ k + 1 = t.gates.length) := by
  have hpos : 0 < t.gates.length := List.length_pos_iff.2 ht.pos
  have key : ∀ m, m ≤ t.gates.length → (∃ k, k < m ∧ (t.dist.take k).sum ≤ r ∧ r < (t.dist.take (k + 1)).sum) ∨
      (t.dist.take m).sum ≤ r := by
    intro m
    induction m with
    | zero => intro _; right; simpa using hr
    | succ m ih =>
      intro hm
      rcases ih (by omega) with ⟨k, hk, h⟩ | h
      · exact .inl ⟨k, by omega, h⟩
      · by_cases hr' : r < (t.dist.take (m + 1)).sum
        · exact .inl ⟨m, by omega, h, hr'⟩
        · exact .inr (not_lt.1 hr')
  rcases key t.gates.length le_rfl with ⟨k, hk, h1, h2⟩ | h
  · exact ⟨k, hk, h1, .inl h2⟩
  · refine ⟨t.gates.length - 1, by omega, le_trans (sum_take_mono ht.nonneg (by omega)) h, .inr (by omega)⟩

/-! ## nesting -/

mutual
/-- the constructor calls that build a nest of choices, innermost first -/
noncomputable def buildTree : PTree G → Res (Component G)
  | .leaf g => .ok (.leaf g)
  | .node f => do
    let x ← buildForest f
    let t ← mkProbTable x.1 x.2
    pure (.nested t)
noncomputable def buildForest : PForest G → Res (List (Option ℝ) × List (Component G))
  | .nil => .ok ([], [])
  | .cons p t rest => do
    let c ← buildTree t
    let x ← buildForest rest
    pure (some p :: x.1, c :: x.2)
end

mutual
theorem buildTree_ok (t : PTree G) {c : Component G} (h : buildTree t = .ok c) :
    CompOK c ∧ c ≠ .measurement ∧ ∀ p, flatOf p c = t.leaves.map fun x => (p * x.1, x.2) := by
  cases t with
  | leaf g =>
    rw [buildTree] at h
    cases h
    exact ⟨trivial, by simp, fun p => by simp [flatOf, PTree.leaves]⟩
  | node f =>
    rw [buildTree] at h
    obtain ⟨x, hx, h⟩ := bind_ok h
    obtain ⟨t, ht, h⟩ := bind_ok h
    cases h
    obtain ⟨ps, e1, e2, hc, hm, hfl⟩ := buildForest_ok f hx
    have hT := mkProbTable_tableOK hc ht
    refine ⟨hT, by simp, fun p => ?_⟩
    obtain ⟨ps', hps, _, _, _, _, _, rfl⟩ := ((mkProbTable_iff hc).1 t).1 ht
    have : ps = ps' := (List.map_injective_iff.2 (Option.some_injective _)) (e1.symm.trans hps)
    subst this
    unfold flatOf
    dsimp only
    rw [hfl, PTree.leaves]
    rw [List.zip_map', List.map_map]
    rfl
theorem buildForest_ok (f : PForest G) {x : List (Option ℝ) × List (Component G)} (h : buildForest f = .ok x) :
    ∃ ps : List ℝ, x.1 = ps.map some ∧ ps.length = x.2.length ∧ (∀ c ∈ x.2, CompOK c) ∧ Component.measurement ∉ x.2 ∧
      flatAll ps x.2 = f.leaves := by
  cases f with
  | nil =>
    rw [buildForest] at h
    cases h
    exact ⟨[], rfl, rfl, by simp, by simp, by simp [flatAll, PForest.leaves]⟩
  | cons p t rest =>
    rw [buildForest] at h
    obtain ⟨c, hc, h⟩ := bind_ok h
    obtain ⟨y, hy, h⟩ := bind_ok h
    cases h
    obtain ⟨h1, h2, h3⟩ := buildTree_ok t hc
    obtain ⟨ps, e1, e2, e3, e4, e5⟩ := buildForest_ok rest hy
    refine ⟨p :: ps, by simp [e1], by simp [e2], ?_, ?_, ?_⟩
    · intro z hz
      rcases List.mem_cons.1 hz with rfl | hz
      · exact h1
      · exact e3 z hz
    · intro hz
      rcases List.mem_cons.1 hz with hz | hz
      · exact h2 hz.symm
      · exact e4 hz
    · rw [PForest.leaves, ← e5, ← h3 p]
      simp [flatAll]
end

mutual
theorem buildTree_fair (t : PTree G) (h : t.Fair) :
    (∃ c, buildTree t = .ok c) ∧ (t.leaves.map (·.1)).sum = 1 := by
  cases t with
  | leaf g => exact ⟨⟨_, rfl⟩, by simp [PTree.leaves]⟩
  | node f =>
    rw [PTree.Fair] at h
    obtain ⟨⟨x, ps', hx, e0, hp⟩, hs⟩ := buildForest_fair f h.2
    rw [h.1] at hs
    refine ⟨?_, by rw [PTree.leaves]; exact hs⟩
    obtain ⟨ps, e1, e2, e3, e4, e5⟩ := buildForest_ok f hx
    rw [buildTree, hx, ok_bind]
    obtain rfl : ps' = ps := (List.map_injective_iff.2 (Option.some_injective _)) (e0.symm.trans e1)
    have hne : ps' ≠ [] := by
      rintro rfl
      rw [List.length_nil, eq_comm, List.length_eq_zero_iff] at e2
      rw [e2] at e5
      rw [← e5] at hs
      simp [flatAll] at hs
    have := mkProbTable_some hne e2 hp e3 e4
    rw [e5, hs, sub_self, abs_zero, if_neg (by norm_num)] at this
    rw [e1, this]
    exact ⟨_, rfl⟩
theorem buildForest_fair (f : PForest G) (h : f.Fair) :
    (∃ x, ∃ ps : List ℝ, buildForest f = .ok x ∧ x.1 = ps.map some ∧ ∀ p ∈ ps, 0 ≤ p ∧ p ≤ 1) ∧
    (f.leaves.map (·.1)).sum = f.total := by
  cases f with
  | nil => exact ⟨⟨_, [], rfl, rfl, by simp⟩, by simp [PForest.leaves, PForest.total]⟩
  | cons p t rest =>
    rw [PForest.Fair] at h
    obtain ⟨⟨c, hc⟩, h1⟩ := buildTree_fair t h.2.2.1
    obtain ⟨⟨x, ps, hx, e, hp⟩, h2⟩ := buildForest_fair rest h.2.2.2
    refine ⟨⟨(some p :: x.1, c :: x.2), p :: ps, ?_, by simp [e], ?_⟩, ?_⟩
    · rw [buildForest, hc, ok_bind, hx, ok_bind]; rfl
    · intro y hy
      rcases List.mem_cons.1 hy with rfl | hy
      · exact ⟨h.1, h.2.1⟩
      · exact hp y hy
    · rw [PForest.leaves, PForest.total, List.map_append, List.sum_append, h2, List.map_map]
      have e : ((fun x : ℝ × G => x.1) ∘ fun x : ℝ × G => (p * x.1, x.2)) = fun x => p * x.1 := rfl
      rw [e, List.sum_map_mul_left, h1, mul_one]
end

end Verif.Proofs
