import Verif.Proofs.Ritz
import Verif.Proofs.PowerMethod

/-! # The loops of the Arnoldi method -/

namespace Verif.Proofs
open Verif Verif.Spec Verif.Model
attribute [-simp] BitVec.getLsbD_eq_getElem

local notation "⟪" x ", " y "⟫" => Inner.inner ℂ x y

/-- the vectors of the basis, zero beyond its end -/
noncomputable def basisVec (n : Nat) (vs : List (U64 → ℂ)) (i : Nat) : Vect n :=
  match vs[i]? with
  | some v => vec n v
  | none => 0

theorem basisVec_cons (n : Nat) (v : U64 → ℂ) (vs : List (U64 → ℂ)) (i : Nat) : basisVec n (v :: vs) (i + 1) = basisVec n vs i := rfl

theorem basisVec_append {n : Nat} {vs : List (U64 → ℂ)} {v : U64 → ℂ} {i : Nat} (h : i < vs.length) :
    basisVec n (vs ++ [v]) i = basisVec n vs i := by
  unfold basisVec; rw [List.getElem?_append_left h]

theorem basisVec_last (n : Nat) (vs : List (U64 → ℂ)) (v : U64 → ℂ) : basisVec n (vs ++ [v]) vs.length = vec n v := by
  unfold basisVec; rw [List.getElem?_append_right (le_refl _), Nat.sub_self]; rfl

theorem sum_basisVec {n : Nat} (g : Vect n → Vect n) (vs : List (U64 → ℂ)) :
    (vs.map fun v => g (vec n v)).sum = ∑ i ∈ Finset.range vs.length, g (basisVec n vs i) := by
  induction vs with
  | nil => rfl
  | cons v vs ih =>
    rw [List.map_cons, List.sum_cons, List.length_cons, Finset.sum_range_succ', ih, add_comm]
    rfl

theorem gramSchmidt_spec {n : Nat} (hn : n ≤ 63) (vs : List (U64 → ℂ)) (hvs : vs.Pairwise fun a b => ⟪vec n b, vec n a⟫ = 0) (w : U64 → ℂ) :
    ∃ w', (∀ cs1 w1, GramSchmidt n vs w cs1 w1 ↔ cs1 = vs.map (fun v => ⟪vec n v, vec n w⟫) ∧ w1 = w') ∧
      vec n w' = vec n w - (vs.map fun v => ⟪vec n v, vec n w⟫ • vec n v).sum := by
  induction vs generalizing w with
  | nil =>
    refine ⟨w, fun cs1 w1 => ⟨?_, ?_⟩, by simp⟩
    · intro h; cases h; exact ⟨rfl, rfl⟩
    · rintro ⟨rfl, rfl⟩; exact .nil _
  | cons v vs ih =>
    rw [List.pairwise_cons] at hvs
    let c := ⟪vec n v, vec n w⟫
    let w1 := onState (2 ^ n) (fun u j => u j + -c * v j) w
    have hw1 : vec n w1 = vec n w - c • vec n v := by
      rw [vec_onState hn, vec_add n w (fun j => -c * v j), vec_smul, neg_smul, sub_eq_add_neg]
    have hip : innerProduct n n v w = .ok c := by rw [innerProduct_eq hn, inner_vec hn]
    have hco : ∀ u ∈ vs, ⟪vec n u, vec n w1⟫ = ⟪vec n u, vec n w⟫ := by
      intro u hu
      rw [hw1, _root_.inner_sub_right, _root_.inner_smul_right, hvs.1 u hu, mul_zero, sub_zero]
    obtain ⟨w', h1, h2⟩ := ih hvs.2 w1
    have hmap : vs.map (fun u => ⟪vec n u, vec n w1⟫) = vs.map (fun u => ⟪vec n u, vec n w⟫) := List.map_congr_left hco
    refine ⟨w', fun cs1 w2 => ⟨?_, ?_⟩, ?_⟩
    · intro h
      cases h with
      | cons _ _ _ wa _ c' cs a1 a2 a3 =>
        rw [hip] at a1
        cases a1
        obtain rfl := (addsWithCoef_iff hn _ _ _ _).1 a2
        obtain ⟨rfl, rfl⟩ := (h1 _ _).1 a3
        exact ⟨by rw [hmap]; rfl, rfl⟩
    · rintro ⟨rfl, rfl⟩
      rw [List.map_cons]
      refine .cons v vs w w1 w2 _ _ hip ((addsWithCoef_iff hn _ _ _ _).2 rfl) ((h1 _ _).2 ⟨?_, rfl⟩)
      exact hmap.symm
    · have e : (vs.map fun u => ⟪vec n u, vec n w1⟫ • vec n u) = vs.map fun u => ⟪vec n u, vec n w⟫ • vec n u :=
        List.map_congr_left fun u hu => by rw [hco u hu]
      rw [h2, e, hw1, List.map_cons, List.sum_cons]
      abel

theorem hessenberg_append {cols : List (List ℂ)} {col : List ℂ} {i : Nat} (h : i < cols.length) (j : Nat) :
    hessenberg (cols ++ [col]) j i = hessenberg cols j i := by
  unfold hessenberg; rw [List.getElem?_append_left h]

theorem hessenberg_last (cols : List (List ℂ)) (col : List ℂ) (j : Nat) :
    hessenberg (cols ++ [col]) j cols.length = match col[j]? with | none => 0 | some x => x := by
  unfold hessenberg; rw [List.getElem?_append_right (le_refl _), Nat.sub_self]; rfl

theorem multiplyCoef_iff {n : Nat} (hn : n ≤ 63) (c : ℂ) (w w' : U64 → ℂ) :
    DRuns (2 ^ n) (multiplyCoef 1 n c) w w' ↔ w' = onState (2 ^ n) (fun v j => v j * c) w := by
  have h : DRuns (2 ^ n) (multiplyCoef 1 n c) w (onState (2 ^ n) (fun v j => v j * c) w) := by
    unfold multiplyCoef
    rw [Nat.one_mul]
    exact elementwise_runs (Nat.pow_le_pow_right (by omega) (by omega)) (fun _ a => a * c) w
  exact ⟨fun h' => DRuns.unique h' h, fun e => e ▸ h⟩

/-- the coefficients of the orthogonalisation -/
noncomputable def gsCoefs (n : Nat) (ts : List PauliOp) (μ : ℂ) (vs : List (U64 → ℂ)) : List ℂ :=
  vs.map fun u => ⟪vec n u, opLin n ts (basisVec n vs (vs.length - 1)) - μ • basisVec n vs (vs.length - 1)⟫

theorem gsCoefs_length (n : Nat) (ts : List PauliOp) (μ : ℂ) (vs : List (U64 → ℂ)) : (gsCoefs n ts μ vs).length = vs.length :=
  List.length_map _

theorem gsCoefs_get {n : Nat} {ts : List PauliOp} {μ : ℂ} {vs : List (U64 → ℂ)} {j : Nat} (h : j < vs.length) :
    (gsCoefs n ts μ vs)[j]? =
      some ⟪basisVec n vs j, opLin n ts (basisVec n vs (vs.length - 1)) - μ • basisVec n vs (vs.length - 1)⟫ := by
  unfold gsCoefs
  rw [List.getElem?_map, List.getElem?_eq_getElem h, Option.map_some]
  congr 2
  unfold basisVec
  rw [List.getElem?_eq_getElem h]

/-- one iteration -/
theorem arnoldi_iter {o : Op} {n : Nat} (hn : n ≤ 63) (hx : ∀ p ∈ o.terms, p.x.toNat < 2 ^ n) {μ : ℂ} {x : Vect n}
    {vs : List (U64 → ℂ)} {H : Nat → Nat → ℂ} (hinv : ArnoldiInv (opLin n o.terms) μ x (basisVec n vs) H vs.length) :
    ∃ v χ w sq, vs.getLast? = some v ∧ (∀ χ', o.Shifts n μ v χ' ↔ χ' = χ) ∧
      (∀ cs1 w1, GramSchmidt n vs χ cs1 w1 ↔ cs1 = gsCoefs n o.terms μ vs ∧ w1 = w) ∧
      vec n w = residual (opLin n o.terms) μ (basisVec n vs) vs.length ∧ squaredNorm n w = .ok sq ∧
      Real.sqrt sq = ‖residual (opLin n o.terms) μ (basisVec n vs) vs.length‖ := by
  have hm := hinv.pos
  obtain ⟨v, hv⟩ : ∃ v, vs.getLast? = some v := by
    cases h : vs.getLast? with
    | none => rw [List.getLast?_eq_none_iff] at h; rw [h] at hm; simp at hm
    | some v => exact ⟨v, rfl⟩
  have hq : basisVec n vs (vs.length - 1) = vec n v := by
    unfold basisVec
    rw [List.getLast?_eq_getElem?] at hv
    rw [hv]
  let χ := onState (2 ^ n) (shiftedBy (OpAct o.terms) μ) v
  have hχ : vec n χ = opLin n o.terms (basisVec n vs (vs.length - 1)) - μ • basisVec n vs (vs.length - 1) := by
    rw [vec_onState hn, vec_shiftedBy hn hx, shiftLin_apply, hq]
  have hpw : vs.Pairwise fun a b => ⟪vec n b, vec n a⟫ = 0 := by
    rw [List.pairwise_iff_getElem]
    intro i j hi hj hij
    have := hinv.ortho j hj i hi
    rw [if_neg (by omega)] at this
    unfold basisVec at this
    rw [List.getElem?_eq_getElem hi, List.getElem?_eq_getElem hj] at this
    exact this
  obtain ⟨w, h1, h2⟩ := gramSchmidt_spec hn vs hpw χ
  have hw : vec n w = residual (opLin n o.terms) μ (basisVec n vs) vs.length := by
    rw [h2, sum_basisVec (fun u => ⟪u, vec n χ⟫ • u), hχ]
    rfl
  refine ⟨v, χ, w, normSq (2 ^ n) w, hv, fun χ' => shifts_iff hn hx μ v χ', fun cs1 w1 => ?_, hw, squaredNorm_eq hn w, ?_⟩
  · rw [h1]; unfold gsCoefs; rw [hχ]
  · rw [normSq_vec hn, Real.sqrt_sq (norm_nonneg _), hw]

theorem arnoldi_next {o : Op} {n : Nat} (hn : n ≤ 63) (hx : ∀ p ∈ o.terms, p.x.toNat < 2 ^ n) {μ : ℂ} {x : Vect n}
    {vs : List (U64 → ℂ)} {H : Nat → Nat → ℂ} (hinv : ArnoldiInv (opLin n o.terms) μ x (basisVec n vs) H vs.length)
    (h0 : residual (opLin n o.terms) μ (basisVec n vs) vs.length ≠ 0) :
    ∃ w', vec n w' = ((‖residual (opLin n o.terms) μ (basisVec n vs) vs.length‖⁻¹ : ℝ) : ℂ) •
        residual (opLin n o.terms) μ (basisVec n vs) vs.length ∧
      ∀ k cols r, o.ArnoldiLoop n μ (k + 1) vs cols r ↔
        o.ArnoldiLoop n μ k (vs ++ [w']) (cols ++ [gsCoefs n o.terms μ vs ++ if k = 0 then [] else
          [(‖residual (opLin n o.terms) μ (basisVec n vs) vs.length‖ : ℂ)]]) r := by
  obtain ⟨v, χ, w, sq, e1, e2, e3, e4, e5, e6⟩ := arnoldi_iter hn hx hinv
  have hne : Real.sqrt sq ≠ 0 := by rw [e6]; exact norm_ne_zero_iff.2 h0
  let w' := onState (2 ^ n) (fun u j => u j * (1 / (Real.sqrt sq : ℂ))) w
  refine ⟨w', ?_, fun k cols r => ⟨fun h => ?_, fun h => ?_⟩⟩
  · rw [vec_onState hn, ← e4]
    have : (fun j => w j * (1 / (Real.sqrt sq : ℂ))) = fun j => ((‖vec n w‖⁻¹ : ℝ) : ℂ) * w j := by
      funext j
      rw [e6, e4]; push_cast; ring
    rw [this, vec_smul]
  · cases h with
    | step _ _ v' χ' w1 w2 cs sq' _ _ a1 a2 a3 a4 a5 a6 a7 =>
      rw [e1] at a1; cases a1
      obtain rfl := (e2 _).1 a2
      obtain ⟨rfl, rfl⟩ := (e3 _ _).1 a3
      rw [e5] at a4; cases a4
      obtain rfl := (multiplyCoef_iff hn _ _ _).1 a6
      rw [← e6]
      exact a7
    | last _ v' χ' w1 cs sq' _ a1 a2 a3 a4 a5 =>
      rw [e1] at a1; cases a1
      obtain rfl := (e2 _).1 a2
      obtain ⟨rfl, rfl⟩ := (e3 _ _).1 a3
      rw [e5] at a4; cases a4
      exact absurd a5 hne
    | nan _ _ v' χ' w1 cs sq' _ a1 a2 a3 a4 a5 =>
      rw [e1] at a1; cases a1
      obtain rfl := (e2 _).1 a2
      obtain ⟨rfl, rfl⟩ := (e3 _ _).1 a3
      rw [e5] at a4; cases a4
      exact absurd a5 hne
  · rw [← e6] at h
    exact .step k vs v χ w w' _ sq cols r e1 ((e2 χ).2 rfl) ((e3 _ _).2 ⟨rfl, rfl⟩) e5 hne ((multiplyCoef_iff hn _ _ _).2 rfl) h

theorem arnoldi_stop {o : Op} {n : Nat} (hn : n ≤ 63) (hx : ∀ p ∈ o.terms, p.x.toNat < 2 ^ n) {μ : ℂ} {x : Vect n}
    {vs : List (U64 → ℂ)} {H : Nat → Nat → ℂ} (hinv : ArnoldiInv (opLin n o.terms) μ x (basisVec n vs) H vs.length)
    (h0 : residual (opLin n o.terms) μ (basisVec n vs) vs.length = 0) (cols : List (List ℂ)) :
    (∀ r, o.ArnoldiLoop n μ 1 vs cols r ↔ r = .ok (vs, cols ++ [gsCoefs n o.terms μ vs])) ∧
    (∀ k r, o.ArnoldiLoop n μ (k + 2) vs cols r ↔ r = .error (.ub "division by zero")) := by
  obtain ⟨v, χ, w, sq, e1, e2, e3, e4, e5, e6⟩ := arnoldi_iter hn hx hinv
  have hz : Real.sqrt sq = 0 := by rw [e6, h0, norm_zero]
  refine ⟨fun r => ⟨fun h => ?_, ?_⟩, fun k r => ⟨fun h => ?_, ?_⟩⟩
  · cases h with
    | step _ _ v' χ' w1 w2 cs sq' _ _ a1 a2 a3 a4 a5 a6 a7 =>
      rw [e1] at a1; cases a1
      obtain rfl := (e2 _).1 a2
      obtain ⟨rfl, rfl⟩ := (e3 _ _).1 a3
      rw [e5] at a4; cases a4
      exact absurd hz a5
    | last _ v' χ' w1 cs sq' _ a1 a2 a3 a4 a5 =>
      rw [e1] at a1; cases a1
      obtain rfl := (e2 _).1 a2
      obtain ⟨rfl, rfl⟩ := (e3 _ _).1 a3
      rfl
  · rintro rfl
    exact .last vs v χ w _ sq cols e1 ((e2 χ).2 rfl) ((e3 _ _).2 ⟨rfl, rfl⟩) e5 hz
  · cases h with
    | step _ _ v' χ' w1 w2 cs sq' _ _ a1 a2 a3 a4 a5 a6 a7 =>
      rw [e1] at a1; cases a1
      obtain rfl := (e2 _).1 a2
      obtain ⟨rfl, rfl⟩ := (e3 _ _).1 a3
      rw [e5] at a4; cases a4
      exact absurd hz a5
    | nan _ _ v' χ' w1 cs sq' _ a1 a2 a3 a4 a5 => rfl
  · rintro rfl
    exact .nan k vs v χ w _ sq cols e1 ((e2 χ).2 rfl) ((e3 _ _).2 ⟨rfl, rfl⟩) e5 hz

/-- the matrix after the last iteration -/
theorem compressed_last {n : Nat} {ts : List PauliOp} {μ : ℂ} {x : Vect n} {vs : List (U64 → ℂ)} {cols : List (List ℂ)}
    (hcols : cols.length + 1 = vs.length) (hinv : ArnoldiInv (opLin n ts) μ x (basisVec n vs) (hessenberg cols) vs.length) :
    Compressed (opLin n ts) μ (basisVec n vs) (hessenberg (cols ++ [gsCoefs n ts μ vs])) vs.length := by
  refine ⟨hinv.ortho, fun i hi j hj => ?_⟩
  by_cases e : i + 1 < vs.length
  · rw [hessenberg_append (by omega), hinv.hess i e j, if_pos hj]
  · obtain rfl : i = cols.length := by omega
    rw [hessenberg_last, gsCoefs_get hj, show vs.length - 1 = cols.length by omega]

/-- the loop of the Arnoldi method -/
theorem arnoldiLoop_spec {o : Op} {n : Nat} (hn : n ≤ 63) (hx : ∀ p ∈ o.terms, p.x.toNat < 2 ^ n) (μ : ℂ) (x : Vect n) (k : Nat)
    (vs : List (U64 → ℂ)) (cols : List (List ℂ)) (hcols : cols.length + 1 = vs.length)
    (hinv : ArnoldiInv (opLin n o.terms) μ x (basisVec n vs) (hessenberg cols) vs.length) :
    ((∃ i, vs.length ≤ i ∧ i < vs.length + k ∧ powers (opLin n o.terms) x i ∈ spanOf (powers (opLin n o.terms) x) i) →
      ∀ r, o.ArnoldiLoop n μ (k + 1) vs cols r ↔ r = .error (.ub "division by zero")) ∧
    ((∀ i, vs.length ≤ i → i < vs.length + k → powers (opLin n o.terms) x i ∉ spanOf (powers (opLin n o.terms) x) i) →
      ∃ vs' cols', (∀ r, o.ArnoldiLoop n μ (k + 1) vs cols r ↔ r = .ok (vs', cols')) ∧
        Compressed (opLin n o.terms) μ (basisVec n vs') (hessenberg cols') (vs.length + k) ∧
        spanOf (basisVec n vs') (vs.length + k) = spanOf (powers (opLin n o.terms) x) (vs.length + k) ∧ vs.length + k ≤ vs'.length) := by
  induction k generalizing vs cols with
  | zero =>
    refine ⟨fun ⟨i, h1, h2, _⟩ => by omega, fun _ => ?_⟩
    have hc := compressed_last hcols hinv
    by_cases h0 : residual (opLin n o.terms) μ (basisVec n vs) vs.length = 0
    · exact ⟨vs, _, (arnoldi_stop hn hx hinv h0 cols).1, hc, hinv.spans, le_refl _⟩
    · obtain ⟨w', hw, hstep⟩ := arnoldi_next hn hx hinv h0
      refine ⟨vs ++ [w'], cols ++ [gsCoefs n o.terms μ vs], fun r => ?_, ?_, ?_, by simp⟩
      · rw [hstep, if_pos rfl, List.append_nil]
        constructor
        · intro h; cases h; rfl
        · rintro rfl; exact .done _ _
      · refine ⟨fun i hi j hj => ?_, fun i hi j hj => ?_⟩
        · rw [basisVec_append hi, basisVec_append hj]; exact hc.ortho i hi j hj
        · rw [basisVec_append hi, basisVec_append hj]; exact hc.hess i hi j hj
      · exact (spanOf_congr (q' := basisVec n vs) (fun i hi => basisVec_append hi)).trans hinv.spans
  | succ k ih =>
    have hiff := residual_zero_iff hinv
    by_cases h0 : residual (opLin n o.terms) μ (basisVec n vs) vs.length = 0
    · refine ⟨fun _ => (arnoldi_stop hn hx hinv h0 cols).2 k, fun h => absurd (hiff.1 h0) (h _ (le_refl _) (by omega))⟩
    · obtain ⟨w', hw, hstep⟩ := arnoldi_next hn hx hinv h0
      set col := gsCoefs n o.terms μ vs ++ if k + 1 = 0 then [] else
          [(‖residual (opLin n o.terms) μ (basisVec n vs) vs.length‖ : ℂ)] with hcol
      rw [if_neg (by omega)] at hcol
      have hlen : (vs ++ [w']).length = vs.length + 1 := by simp
      have hinv' : ArnoldiInv (opLin n o.terms) μ x (basisVec n (vs ++ [w'])) (hessenberg (cols ++ [col])) (vs ++ [w']).length := by
        rw [hlen]
        refine arnoldi_step hinv h0 (fun i hi => basisVec_append hi) (by rw [basisVec_last, hw]) (fun i hi j => hessenberg_append (by omega) j)
          fun j => ?_
        rw [show vs.length - 1 = cols.length by omega, hessenberg_last, hcol]
        by_cases hj : j < vs.length
        · rw [if_pos hj, List.getElem?_append_left (by rw [gsCoefs_length]; exact hj), gsCoefs_get hj,
            show vs.length - 1 = cols.length by omega]
        · rw [if_neg hj, List.getElem?_append_right (by rw [gsCoefs_length]; omega), gsCoefs_length]
          by_cases hj' : j = vs.length
          · rw [if_pos hj', hj', Nat.sub_self]; rfl
          · rw [if_neg hj']
            obtain ⟨d, hd⟩ : ∃ d, j - vs.length = d + 1 := ⟨j - vs.length - 1, by omega⟩
            rw [hd]; rfl
      obtain ⟨i1, i2⟩ := ih (vs ++ [w']) (cols ++ [col]) (by simp; omega) hinv'
      rw [hlen] at i1 i2
      refine ⟨fun ⟨i, h1, h2, h3⟩ r => ?_, fun h => ?_⟩
      · rw [hstep]
        refine i1 ⟨i, ?_, by omega, h3⟩ r
        rcases Nat.eq_or_lt_of_le h1 with e | e
        · subst e; exact absurd (hiff.2 h3) h0
        · omega
      · obtain ⟨vs', cols', j1, j2, j3, j4⟩ := i2 (fun i h1 h2 => h i (by omega) (by omega))
        have e : vs.length + 1 + k = vs.length + (k + 1) := by omega
        rw [e] at j2 j3 j4
        exact ⟨vs', cols', fun r => by rw [hstep, j1], j2, j3, j4⟩

end Verif.Proofs
