import Verif.Proofs.QasmLooseParts

/-! # OpenQASM: statements that have been read -/

namespace Verif.Proofs
open Verif Verif.Spec Verif.Model

/-! ## words -/

theorem starts_split {s kw : Text} (h : startsWithWord (lowerCase s) kw = true) : ∃ w t, s = w ++ t ∧ SameWord kw w ∧ (∀ c ∈ t.head?, isWord c = false) ∧
    s.drop kw.length = t ∧ (lowerCase s).drop kw.length = lowerCase t := by
  unfold startsWithWord at h
  rw [Bool.and_eq_true] at h
  obtain ⟨h1, h2⟩ := h
  obtain ⟨u, hu⟩ := List.isPrefixOf_iff_prefix.1 h1
  have hd : (lowerCase s).drop kw.length = lowerCase (s.drop kw.length) := List.map_drop.symm
  refine ⟨s.take kw.length, s.drop kw.length, (List.take_append_drop _ _).symm, ?_, ?_, rfl, hd⟩
  · unfold SameWord
    rw [List.map_take]
    show (lowerCase s).take kw.length = kw
    rw [← hu, List.take_left]
  · intro c hc
    rw [hd] at h2
    cases ht : s.drop kw.length with
    | nil => rw [ht] at hc; cases hc
    | cons d t =>
      rw [ht] at hc h2
      cases hc
      unfold lowerCase at h2
      rw [List.map_cons] at h2
      by_contra hw
      rw [Bool.not_eq_false] at hw
      simp only [word_lower hw] at h2
      cases h2

theorem lower_gap {s : Text} (h : Gap (lowerCase s)) : Gap s := by
  intro c hc
  have := h c.toLower (List.mem_map.2 ⟨c, hc, rfl⟩)
  by_cases hw : isWord c = true
  · exact absurd (word_blank (word_lower hw)) (by rw [isBlank_gap.2 this]; simp)
  · have e : c.toLower = c := by
      unfold Char.toLower
      rw [dif_neg]
      intro hh
      apply hw
      unfold isWord Char.isAlphanum Char.isAlpha Char.isUpper
      simp
      exact .inl (.inl (.inl hh))
    rw [e] at this
    exact this

theorem lower_eq_of_nonlower {c d : Char} (h : c.toLower = d) (hd : d.isLower = false) : c = d := by
  unfold Char.toLower at h
  split at h
  · rename_i hc
    exfalso
    have h1 : 65 ≤ c.toNat ∧ c.toNat ≤ 90 := ⟨UInt32.le_iff_toNat_le.1 hc.1, UInt32.le_iff_toNat_le.1 hc.2⟩
    have key : ∀ n : Fin 26, (Char.ofNat (65 + n.val)).toLower.isLower = true := by decide
    have := key ⟨c.toNat - 65, by omega⟩
    rw [show 65 + (c.toNat - 65) = c.toNat by omega, Char.ofNat_toNat] at this
    have e : c.toLower = d := by
      unfold Char.toLower
      rw [dif_pos hc]
      exact h
    rw [e, hd] at this
    cases this
  · exact h

theorem lower_append {s a b : Text} (h : lowerCase s = a ++ b) : ∃ x y, s = x ++ y ∧ lowerCase x = a ∧ lowerCase y = b := by
  unfold lowerCase at h
  obtain ⟨x, y, e, h1, h2⟩ := List.map_eq_append_iff.1 h
  exact ⟨x, y, e, h1, h2⟩

theorem last_suffix {a t : Text} (h : Trimmed (a ++ t)) : ∀ c ∈ t.getLast?, isBlank c = false := by
  intro c hc
  cases ht : t with
  | nil => rw [ht] at hc; cases hc
  | cons d u => exact h.2 c (by rw [List.getLast?_append_of_ne_nil _ (by rw [ht]; simp)]; exact hc)

/-- the text behind the white space after a keyword, in lower case -/
theorem lower_trimmed {t v : Text} (h : trim (lowerCase t) = v) (ht : ∀ c ∈ t.getLast?, isBlank c = false) : ∃ g u, Gap g ∧ t = g ++ u ∧ lowerCase u = v := by
  obtain ⟨k, k', hk, hk', ek⟩ := trim_split (lowerCase t)
  rw [h] at ek
  obtain ⟨x, y, e1, e2, e3⟩ := lower_append ek
  obtain ⟨y1, y2, e4, e5, e6⟩ := lower_append e3
  have gy2 : Gap y2 := lower_gap (by rw [e6]; exact hk')
  have gx : Gap x := lower_gap (by rw [e2]; exact hk)
  rcases List.eq_nil_or_concat y2 with hy | ⟨u, d, hd⟩
  · rw [hy, List.append_nil] at e4
    exact ⟨x, y, gx, e1, by rw [e4, e5]⟩
  · exfalso
    have := ht d (by rw [e1, e4, hd, List.concat_eq_append, ← List.append_assoc, ← List.append_assoc, List.getLast?_concat]; rfl)
    rw [gap_blank gy2 d (by rw [hd]; simp)] at this
    cases this

/-! ## one statement -/

/-- a statement of the form `q` has been carried out -/
def Carried (q : LStmt) (r r' : Reader) : Prop := ∀ p, Rel p r → totalSize p.qregs + q.qubits < 2 ^ 64 → totalSize p.cregs + q.bits < 2 ^ 64 →
  ∃ p', q.exec p = some p' ∧ Rel p' r'

theorem register_inv {s kw name : Text} {size : Nat} (ht : Trimmed s) (hk : startsWithWord (lowerCase s) kw = true)
    (h1 : parseRegisterName s kw = .ok name) (h2 : parseRegisterDecl s kw = .ok size) :
    ∃ w g u, s = w ++ (g ++ u) ∧ SameWord kw w ∧ Gap g ∧ Apart (g ++ u) ∧ LooseElement (name, size) u ∧ size ≠ 0 := by
  obtain ⟨w, t, e, hw, ha, hd, -⟩ := starts_split hk
  unfold parseRegisterDecl at h2
  unfold parseRegisterName at h1
  rw [hd] at h1 h2
  dsimp only at h1
  split at h2
  · cases h2
  rename_i nm ix hb
  split at h2
  · cases h2
  rename_i n hi
  split at h2
  · cases h2
  rename_i hne
  cases h2
  split at h1
  · cases h1
  have hname : nm = name := by
    obtain ⟨A, B, e1, n1, n2, n3, rfl, rfl⟩ := bracketed_inv hb
    cases h1
    rw [e1, takeWhile_word (p := (· != '[')) (name := A)]
    · intro c hc
      simpa using fun e : c = '[' => n1 (e ▸ hc)
    · rfl
  subst hname
  obtain ⟨g, hg, et⟩ := suffix_trim (e ▸ ht)
  refine ⟨w, g, trim t, by rw [← et]; exact e, hw, hg, ?_, element_inv_trim hb hi, hne⟩
  rw [← et]
  exact apart_of ha

theorem rel_header {p : QProgram} {r : Reader} (hr : Rel p r) :
    Rel { p with header := true, warnings := p.warnings ++ if p.header then [] else ["OPENQASM 2.0 header is missing"] }
      (if r.sawVersion = true then r else { r with warnings := r.warnings ++ ["OPENQASM 2.0 header is missing"], sawVersion := true }) := by
  by_cases hb : p.header = true
  · rw [if_pos (hr.head.trans hb)]
    refine ⟨hr.q, hr.qc, hr.c, hr.cc, hr.circ, ?_, hr.head.trans hb⟩
    dsimp only
    rw [if_pos hb, List.append_nil, hr.warn]
  · rw [if_neg (show ¬ r.sawVersion = true from fun h => hb (hr.head.symm.trans h))]
    refine ⟨hr.q, hr.qc, hr.c, hr.cc, hr.circ, ?_, rfl⟩
    dsimp only
    rw [if_neg hb, hr.warn]

/-- operands that have been read -/
theorem operands_inv {regs : Registers} {parts : List Text} {qs : List Nat} (h : List.Forall₂ (fun q op => parseIndexedRegister op regs = .ok q) qs parts) :
    ∃ ops : List (Text × Nat), List.Forall₂ (fun o s => trim s = s → LooseElement o s) ops parts ∧
      ∀ {total}, Consecutive regs total → totalSize (declsOf regs) < 2 ^ 64 → ops.mapM (fun o => flatIndex (declsOf regs) o.1 o.2) = some qs := by
  induction h with
  | nil => exact ⟨[], .nil, fun _ _ => rfl⟩
  | cons h1 _ ih =>
    obtain ⟨ops, f, g⟩ := ih
    obtain ⟨name, i, he, hf⟩ := indexed_inv h1
    refine ⟨(name, i) :: ops, .cons (fun e => by rw [e] at he; exact he) f, fun hc ht => ?_⟩
    rw [List.mapM_cons, hf hc ht, g hc ht]
    rfl

theorem closeIndex_inv (s : Text) : ∀ (d : Int) (i k : Nat), 0 < d → closeIndex s d i = some k →
    ∃ j, k = i + j ∧ j < s.length ∧ s = s.take j ++ ')' :: s.drop (j + 1) := by
  induction s with
  | nil => intro d i k _ h; cases h
  | cons c s ih =>
    intro d i k hd h
    obtain ⟨D, hD⟩ : ∃ D : Int, D = (if (c == ')') = true then (if (c == '(') = true then d + 1 else d) - 1 else if (c == '(') = true then d + 1 else d) :=
      ⟨_, rfl⟩
    have hstep : closeIndex (c :: s) d i = if (D == 0) = true then some i else closeIndex s D (i + 1) := by rw [hD]; rfl
    rw [hstep] at h
    split at h
    · rename_i hz
      cases h
      rw [beq_iff_eq] at hz
      have hc : c = ')' := by
        by_contra hc
        rw [show (c == ')') = false by simpa using hc] at hD
        simp only [Bool.false_eq_true, if_false] at hD
        split at hD <;> omega
      exact ⟨0, rfl, by simp, by rw [hc]; rfl⟩
    · rename_i hz
      have hz : ¬ D = 0 := by simpa using hz
      have hpos : 0 < D := by
        split at hD <;> split at hD <;> omega
      obtain ⟨j, e1, e2, e3⟩ := ih _ _ _ hpos h
      refine ⟨j + 1, by omega, by simpa using e2, ?_⟩
      rw [List.take_succ_cons, List.drop_succ_cons, List.cons_append, ← e3]

/-- parameters that have been read -/
theorem params_inv {lib : Libc} (hlen : ∀ s, (lib.strtod s).2 ≤ s.length) {s rest : Text} {θs : List ℝ} (ht : ∀ c ∈ s.getLast?, isBlank c = false)
    (h : parseParams lib s = .ok (θs, rest)) :
    ((∀ c ∈ s.head?, c ≠ '(') ∧ θs = [] ∧ rest = s) ∨
    ∃ u g, s = '(' :: (u ++ ')' :: (g ++ rest)) ∧ Gap g ∧ LooseList (fun x v => AngleReads lib.strtod .sum x v []) θs u := by
  unfold parseParams at h
  split at h
  · rename_i t
    split at h
    · cases h
    rename_i k hk
    obtain ⟨parts, h1, h2⟩ := bind_ok h
    obtain ⟨ps, h3, h4⟩ := bind_ok h2
    cases h4
    rw [closeIndex] at hk
    simp only [beq_self_eq_true, if_true] at hk
    rw [show ('(' == ')') = false from rfl] at hk
    simp only [Bool.false_eq_true, if_false] at hk
    rw [if_neg (by decide)] at hk
    obtain ⟨j, e1, e2, e3⟩ := closeIndex_inv t _ _ _ (by norm_num) hk
    have ek : k = j + 1 := by omega
    subst ek
    rw [List.drop_succ_cons, List.drop_zero, Nat.add_sub_cancel] at h1
    rw [show List.drop (j + 1 + 1) ('(' :: t) = t.drop (j + 1) from rfl]
    have hlast : ∀ c ∈ (t.drop (j + 1)).getLast?, isBlank c = false := by
      intro c hc
      refine ht c ?_
      have hne : t.drop (j + 1) ≠ [] := by
        intro e
        rw [e] at hc
        cases hc
      rw [e3, show '(' :: (t.take j ++ ')' :: t.drop (j + 1)) = ('(' :: (t.take j ++ [')'])) ++ t.drop (j + 1) by simp, List.getLast?_append_of_ne_nil _ hne]
      exact hc
    obtain ⟨g, g', hg, hg', e⟩ := trim_split (t.drop (j + 1))
    have hg'nil : g' = [] := by
      rcases List.eq_nil_or_concat g' with h | ⟨u, c, h⟩
      · exact h
      · exfalso
        have := hlast c (by rw [e, h, List.concat_eq_append, ← List.append_assoc, ← List.append_assoc, List.getLast?_concat]; rfl)
        rw [gap_blank hg' c (by rw [h]; simp)] at this
        cases this
    rw [hg'nil, List.append_nil] at e
    refine .inr ⟨t.take j, g, ?_, hg, list_inv h1 ((mapM_forall₂ h3).imp fun x v hx (_ : trim v = v) => parseAngle_inv hlen hx)⟩
    rw [← e, ← e3]
  · rename_i hne
    cases h
    refine .inl ⟨?_, rfl, rfl⟩
    intro c hc e
    subst e
    cases s with
    | nil => cases hc
    | cons d s =>
      cases hc
      exact hne s rfl

theorem gate_inv {lib : Libc} (hlen : ∀ s, (lib.strtod s).2 ≤ s.length) {r r' : Reader} {s : Text} (ht : Trimmed s)
    (hres : ∀ kw ∈ reservedWords, kw ≠ "openqasm".toList → startsWithWord (lowerCase s) kw = false) (h : r.parseGate lib s = .ok r') :
    ∃ q, LooseStmt lib.strtod q s ∧ Carried q r r' := by
  unfold Reader.parseGate at h
  dsimp only at h
  split at h
  · cases h
  rename_i hne
  obtain ⟨⟨θs, rest⟩, h1, h2⟩ := bind_ok h
  clear h
  obtain ⟨parts, h3, h4⟩ := bind_ok h2
  clear h2
  obtain ⟨qs, h5, h6⟩ := bind_ok h4
  clear h4
  dsimp only at h3
  split at h6
  · cases h6
  rename_i hnd
  rw [not_not] at hnd
  obtain ⟨d, h7, h8⟩ := bind_ok h6
  clear h6
  have hw : ∀ c ∈ s.takeWhile isWord, isWord c = true := fun c hc => mem_takeWhile_pos hc
  have hw' : s.takeWhile isWord ≠ [] := by simpa using hne
  have es : s = s.takeWhile isWord ++ s.dropWhile isWord := List.takeWhile_append_dropWhile.symm
  generalize hN : s.takeWhile isWord = name at *
  generalize hT : s.dropWhile isWord = t at *
  have hp : Parts (name ++ t) name t := by
    refine ⟨rfl, hw', hw, fun c hc => ?_⟩
    have := List.head?_dropWhile_not isWord s
    rw [hT, hc] at this
    simpa using this
  have htt : Trimmed (name ++ t) := es ▸ ht
  rw [es, List.drop_left] at h1
  have hlast : ∀ c ∈ (trim t).getLast?, isBlank c = false := (trimmed_trim t).2
  have hid : Ident name := ⟨hw', fun c hc => by
    have := hw c hc
    unfold isWord at this
    rw [Bool.or_eq_true] at this
    simpa using this⟩
  have hga := gate_agree (name.map Char.toLower) θs qs
  change Agree _ (gateNamed (if lowerCase name = t! "u" then t! "u3" else lowerCase name) θs qs) at hga
  rw [h7] at hga
  have hq : qelibGate (name.map Char.toLower) θs qs = some d := by
    cases hq : qelibGate (name.map Char.toLower) θs qs with
    | none =>
      rw [hq] at hga
      obtain ⟨m, hm⟩ := hga
      cases hm
    | some d' =>
      rw [hq] at hga
      cases (show (Except.ok d : Res _) = .ok d' from hga)
      rfl
  have hnr : name.map Char.toLower ∉ reservedWords := by
    intro hm
    by_cases ho : name.map Char.toLower = "openqasm".toList
    · rw [ho] at hq
      rw [(qelib_unknown (name := "openqasm".toList) (by decide) θs qs).1] at hq
      cases hq
    · have hk := hres _ hm ho
      rw [es, lowerCase_append, starts_word] at hk
      · exact absurd hk (by simp [lowerCase])
      · intro c hc
        obtain ⟨x, hx, rfl⟩ := List.mem_map.1 hc
        exact word_lower (hw x hx)
      · intro c hc
        obtain ⟨x, hx, rfl⟩ := List.mem_map.1 hc
        exact word_lower (hw x hx)
      · intro c hc
        unfold lowerCase at hc
        rw [List.head?_map] at hc
        obtain ⟨x, hx, rfl⟩ := Option.mem_map.1 hc
        exact nonword_lower (hp.tail x hx)
  have regs : (if r.sawVersion = true then r else { r with warnings := r.warnings ++ ["OPENQASM 2.0 header is missing"], sawVersion := true }).qregs = r.qregs := by
    split <;> rfl
  obtain ⟨ops, ho, hflat⟩ := operands_inv (mapM_forall₂ h5)
  have hl := list_inv h3 ho
  obtain ⟨g, hg, et⟩ := suffix_trim htt
  have hdone : Carried (.gate name θs ops) r r' := by
    intro p hr hqs _
    have hr0 := rel_header hr
    rw [LStmt.exec, ← hr0.q, hflat hr0.qc (by rw [hr0.q]; exact hqs), Option.bind_some, if_neg (by simpa using hnd), hq, Option.bind_some]
    cases d with
    | none =>
      cases h8
      rw [if_neg (by simp)]
      exact ⟨_, rfl, by simpa [hr0.q] using hr0⟩
    | some d =>
      have hb := qelib_build hq hnd
      by_cases hbig : ∃ q ∈ qs, 64 ≤ q
      · rw [if_pos hbig] at hb
        obtain ⟨m, hm⟩ := hb
        change Reader.add _ d = .ok r' at h8
        unfold Reader.add at h8
        rw [hm] at h8
        cases h8
      · rw [if_neg hbig] at hb
        obtain ⟨G, hG⟩ := hb
        rw [if_neg (fun h => hbig h.2)]
        obtain ⟨r2, e1, e2⟩ := add_sim hr0 hG
        change Reader.add _ d = .ok r' at h8
        rw [e1] at h8
        cases h8
        exact ⟨_, rfl, by simpa [hr0.q] using e2⟩
  rcases params_inv hlen hlast h1 with ⟨c1, rfl, rfl⟩ | ⟨u, g2, e, hg2, hul⟩
  · refine ⟨.gate name [] ops, ?_, hdone⟩
    have := LooseStmt.gate (f := lib.strtod) name g (trim t) ops hid hnr hg (by rw [← et]; exact apart_of hp.tail) c1 hl
    rw [← et, ← es] at this
    exact this
  · refine ⟨.gate name θs ops, ?_, hdone⟩
    have := LooseStmt.angles (f := lib.strtod) name g u (g2 ++ rest) θs ops hid hnr hg hul (list_gap hg2 hl)
    rw [← e, ← et, ← es] at this
    exact this

/-! ## measurements -/

theorem arrow_inv {s : Text} : ∀ {k : Nat}, findArrow s = some k → s = s.take k ++ '-' :: '>' :: s.drop (k + 2) := by
  induction s with
  | nil => intro k h; cases h
  | cons c s ih =>
    intro k h
    have hstep : findArrow (c :: s) = if c = '-' ∧ s.head? = some '>' then some 0 else (findArrow s).map (· + 1) := by
      cases s with
      | nil => simp [findArrow]
      | cons d s => rw [findArrow]; simp
    rw [hstep] at h
    split at h
    · rename_i hc
      cases h
      obtain ⟨rfl, h2⟩ := hc
      cases s with
      | nil => cases h2
      | cons d s =>
        cases h2
        rfl
    · obtain ⟨j, hj, rfl⟩ := Option.map_eq_some_iff.1 h
      have := ih hj
      rw [List.take_succ_cons, show j + 1 + 2 = (j + 2) + 1 from rfl, List.drop_succ_cons, List.cons_append, ← this]

theorem measure_inv {lib : Libc} {r r' : Reader} {s : Text} (ht : Trimmed s) (hk : startsWithWord (lowerCase s) (t! "measure") = true)
    (h : r.parseMeasure s = .ok r') : ∃ q, LooseStmt lib.strtod q s ∧ Carried q r r' := by
  obtain ⟨w, t, e, hw, ha, hd, -⟩ := starts_split hk
  unfold Reader.parseMeasure at h
  rw [hd] at h
  dsimp only at h
  split at h
  · cases h
  rename_i k hk2
  obtain ⟨x, h1, h2⟩ := bind_ok h
  clear h
  obtain ⟨y, h3, h4⟩ := bind_ok h2
  clear h2
  split at h4
  · cases h4
  rename_i hsz
  rw [not_not] at hsz
  obtain ⟨g, hg, et⟩ := suffix_trim (e ▸ ht : Trimmed (w ++ t))
  have ea := arrow_inv hk2
  obtain ⟨g1, g', hg1, hg', e1⟩ := trim_split ((trim t).take k)
  have htr : Trimmed (((trim t).take k ++ ['-', '>']) ++ (trim t).drop (k + 2)) := by
    have := trimmed_trim t
    rw [ea] at this
    simpa using this
  obtain ⟨g'', hg'', e2⟩ := suffix_trim htr
  obtain ⟨q, hq, hqe⟩ := measOperand_inv h1
  obtain ⟨c, hc, hce⟩ := measOperand_inv h3
  rw [trim_trim] at hq hc
  have eall : t = (g ++ g1) ++ (trim ((trim t).take k) ++ g' ++ '-' :: '>' :: (g'' ++ trim ((trim t).drop (k + 2)))) := by
    rw [← e2]
    conv_lhs => rw [et, ea, e1]
    simp
  refine ⟨.measure q c, ?_, ?_⟩
  · have := LooseStmt.measure (f := lib.strtod) w (g ++ g1) _ g' g'' _ q c hw (by rw [← eall]; exact apart_of ha) (gap_append hg hg1) hg' hg'' hq hc
    rw [← eall, ← e] at this
    exact this
  · intro p hr hqs hcs
    have m1 := hqe hr.qc (by rw [hr.q]; exact hqs)
    have m2 := hce hr.cc (by rw [hr.c]; exact hcs)
    rw [hr.q] at m1
    rw [hr.c] at m2
    rw [LStmt.exec, m1, Option.bind_some, m2, Option.bind_some]
    have := meas_loop hr ((List.range x.size).map fun i => ((x.offset + i) % 2 ^ 64, (y.offset + i) % 2 ^ 64))
    rw [List.foldlM_map, ← zip_range] at this
    have hiff : ((List.map (fun i => (x.offset + i) % 2 ^ 64) (List.range x.size)).length ≠
        (List.map (fun i => (y.offset + i) % 2 ^ 64) (List.range y.size)).length ∨
        ∃ q ∈ List.map (fun i => (x.offset + i) % 2 ^ 64) (List.range x.size), 64 ≤ q) ↔
        ∃ z ∈ (List.range x.size).map fun i => ((x.offset + i) % 2 ^ 64, (y.offset + i) % 2 ^ 64), 64 ≤ z.1 := by
      simp [hsz]
    simp only [hiff]
    rw [← hsz]
    split
    · rename_i hbig
      rw [if_pos hbig] at this
      obtain ⟨m, hm⟩ := this
      rw [hm] at h4
      cases h4
    · rename_i hbig
      rw [if_neg hbig] at this
      obtain ⟨r2, e3, e4⟩ := this
      rw [e3] at h4
      cases h4
      exact ⟨_, rfl, e4⟩

theorem lower_eq_list : ∀ {u v : Text}, lowerCase u = v → (∀ c ∈ v, c.isLower = false) → u = v := by
  intro u
  induction u with
  | nil => intro v h _; exact h
  | cons a u ih =>
    intro v h hv
    subst h
    unfold lowerCase at hv ⊢
    rw [List.map_cons] at hv ⊢
    rw [← lower_eq_of_nonlower rfl (hv _ List.mem_cons_self), ← show u = u.map Char.toLower from ih rfl fun c hc => hv c (List.mem_cons_of_mem _ hc)]

/-! ## any statement -/

theorem stmt_inv {lib : Libc} (hlen : ∀ s, (lib.strtod s).2 ≤ s.length) {r r' : Reader} {s : Text} (ht : Trimmed s) (h : r.handle lib s = .ok r') :
    ∃ q, LooseStmt lib.strtod q s ∧ Carried q r r' := by
  unfold Reader.handle at h
  rw [trim_of_trimmed ht] at h
  dsimp only at h
  split at h
  · rename_i hv
    rw [Bool.and_eq_true, beq_iff_eq] at hv
    cases h
    obtain ⟨w, t, e, hw, ha, hd, hl⟩ := starts_split hv.1
    rw [hl] at hv
    obtain ⟨g, u, hg, et, eu⟩ := lower_trimmed hv.2 (last_suffix (e ▸ ht : Trimmed (w ++ t)))
    have eu' : u = "2.0".toList := by
      exact lower_eq_list eu (by decide)
    refine ⟨.version, ?_, fun p hr _ _ => ⟨_, rfl, hr.q, hr.qc, hr.c, hr.cc, hr.circ, hr.warn, rfl⟩⟩
    have hgne : g ≠ [] := by
      rintro rfl
      rw [List.nil_append] at et
      have := ha '2' (by rw [et, eu']; rfl)
      cases this
    have := LooseStmt.version (f := lib.strtod) w g hw hg hgne
    rw [← eu', ← et, ← e] at this
    exact this
  rename_i hv
  split at h
  · rename_i hi
    obtain ⟨w, t, e, hw, ha, hd, hl⟩ := starts_split hi
    split at h
    · cases h
    rename_i hf
    rw [not_not, hl] at hf
    cases h
    obtain ⟨g, u, hg, et, eu⟩ := lower_trimmed hf (last_suffix (e ▸ ht : Trimmed (w ++ t)))
    obtain ⟨a, v, ea, eb, ev⟩ := lower_append (show lowerCase u = ['"'] ++ (t! "qelib1.inc\"") from eu)
    obtain ⟨f, b, ef, hf1, hf2⟩ := lower_append (show lowerCase v = (t! "qelib1.inc") ++ ['"'] from ev)
    have quote : ∀ {x : Text}, lowerCase x = ['"'] → x = ['"'] := by
      exact fun hx => lower_eq_list hx (by decide)
    refine ⟨.include, ?_, fun p hr _ _ => ⟨_, rfl, hr⟩⟩
    have := LooseStmt.include (f := lib.strtod) w g f hw hg hf1
    rw [show '"' :: (f ++ ['"']) = u by rw [ea, ef, quote eb, quote hf2]; rfl, ← et, ← e] at this
    exact this
  rename_i hi
  split at h
  · rename_i hk
    obtain ⟨name, h1, h2⟩ := bind_ok h
    split at h2
    · cases h2
    rename_i hl
    obtain ⟨size, h3, h4⟩ := bind_ok h2
    cases h4
    obtain ⟨w, g, u, e, hw, hg, ha, he, hne⟩ := register_inv ht hk h1 h3
    refine ⟨.qreg name size, by rw [e]; exact .qreg w g name u size hw hg ha he, ?_⟩
    intro p hr _ _
    have hm : name ∉ p.qregs.map Prod.fst := by rw [← hr.q, ← lookup_decls]; exact hl
    rw [LStmt.exec, if_neg (by simp only [hm, hne, or_self, not_false_eq_true])]
    refine ⟨_, rfl, ?_, consecutive_snoc hr.qc (Option.not_isSome_iff_eq_none.1 hl), hr.c, hr.cc, hr.circ, hr.warn, hr.head⟩
    show declsOf (r.qregs ++ [(name, ⟨r.nQubits, size⟩)]) = _
    unfold declsOf
    rw [List.map_append]
    show declsOf r.qregs ++ _ = _
    rw [hr.q]
    rfl
  rename_i hq
  split at h
  · rename_i hk
    obtain ⟨name, h1, h2⟩ := bind_ok h
    split at h2
    · cases h2
    rename_i hl
    obtain ⟨size, h3, h4⟩ := bind_ok h2
    cases h4
    obtain ⟨w, g, u, e, hw, hg, ha, he, hne⟩ := register_inv ht hk h1 h3
    refine ⟨.creg name size, by rw [e]; exact .creg w g name u size hw hg ha he, ?_⟩
    intro p hr _ _
    have hm : name ∉ p.cregs.map Prod.fst := by rw [← hr.c, ← lookup_decls]; exact hl
    rw [LStmt.exec, if_neg (by simp only [hm, hne, or_self, not_false_eq_true])]
    refine ⟨_, rfl, hr.q, hr.qc, ?_, consecutive_snoc hr.cc (Option.not_isSome_iff_eq_none.1 hl), hr.circ, hr.warn, hr.head⟩
    show declsOf (r.cregs ++ [(name, ⟨r.nClbits, size⟩)]) = _
    unfold declsOf
    rw [List.map_append]
    show declsOf r.cregs ++ _ = _
    rw [hr.c]
    rfl
  rename_i hc
  split at h
  · rename_i hb
    obtain ⟨w, t, e, hw, ha, -, -⟩ := starts_split hb
    cases h
    refine ⟨.barrier, by rw [e]; exact .barrier w t hw (apart_of ha), ?_⟩
    intro p hr _ _
    exact ⟨_, rfl, hr.q, hr.qc, hr.c, hr.cc, hr.circ, by show _ ++ _ = _ ++ _; rw [hr.warn], hr.head⟩
  rename_i hb
  split at h
  · rename_i hm
    exact measure_inv ht hm h
  rename_i hm
  split at h
  · cases h
  rename_i hrest
  rw [Bool.or_eq_true, Bool.or_eq_true, Bool.or_eq_true, not_or, not_or, not_or] at hrest
  refine gate_inv hlen ht (fun kw hkw hne => ?_) h
  unfold reservedWords at hkw
  simp only [List.map_cons, List.map_nil, List.mem_cons, List.not_mem_nil, or_false] at hkw
  rcases hkw with rfl | rfl | rfl | rfl | rfl | rfl | rfl | rfl | rfl | rfl
  · exact absurd rfl hne
  · exact (Bool.not_eq_true _).mp hi
  · exact (Bool.not_eq_true _).mp hq
  · exact (Bool.not_eq_true _).mp hc
  · exact (Bool.not_eq_true _).mp hb
  · exact (Bool.not_eq_true _).mp hm
  · exact (Bool.not_eq_true _).mp hrest.1.1.1
  · exact (Bool.not_eq_true _).mp hrest.1.1.2
  · exact (Bool.not_eq_true _).mp hrest.1.2
  · exact (Bool.not_eq_true _).mp hrest.2

/-! ## programs -/

theorem lexec_sizes {p p' : QProgram} {q : LStmt} (h : q.exec p = some p') :
    totalSize p'.qregs = totalSize p.qregs + q.qubits ∧ totalSize p'.cregs = totalSize p.cregs + q.bits := by
  cases q with
  | version => rw [LStmt.exec] at h; cases h; exact ⟨rfl, rfl⟩
  | «include» => rw [LStmt.exec] at h; cases h; exact ⟨rfl, rfl⟩
  | qreg name size =>
    rw [LStmt.exec] at h
    split at h <;> cases h
    exact ⟨by simp [totalSize, LStmt.qubits], rfl⟩
  | creg name size =>
    rw [LStmt.exec] at h
    split at h <;> cases h
    exact ⟨rfl, by simp [totalSize, LStmt.bits]⟩
  | barrier => rw [LStmt.exec] at h; cases h; exact ⟨rfl, rfl⟩
  | gate name as ops =>
    rw [LStmt.exec] at h
    obtain ⟨qs, -, h⟩ := Option.bind_eq_some_iff.1 h
    split at h
    · cases h
    obtain ⟨d, -, h⟩ := Option.bind_eq_some_iff.1 h
    split at h <;> cases h
    exact ⟨rfl, rfl⟩
  | measure q c =>
    rw [LStmt.exec] at h
    obtain ⟨qs, -, h⟩ := Option.bind_eq_some_iff.1 h
    obtain ⟨cs, -, h⟩ := Option.bind_eq_some_iff.1 h
    split at h <;> cases h
    exact ⟨rfl, rfl⟩

theorem stmts_inv {lib : Libc} (hlen : ∀ s, (lib.strtod s).2 ≤ s.length) (stmts : List Text) (ht : ∀ s ∈ stmts, Trimmed s) : ∀ {r r' : Reader},
    stmts.foldlM (Reader.handle lib) r = .ok r' → ∃ prog : List LStmt, List.Forall₂ (fun q s => LooseStmt lib.strtod q s) prog stmts ∧
      ∀ p, Rel p r → totalSize p.qregs + (prog.map LStmt.qubits).sum < 2 ^ 64 → totalSize p.cregs + (prog.map LStmt.bits).sum < 2 ^ 64 →
        ∃ p', prog.foldlM LStmt.exec p = some p' ∧ Rel p' r' ∧ totalSize p'.qregs = totalSize p.qregs + (prog.map LStmt.qubits).sum ∧
          totalSize p'.cregs = totalSize p.cregs + (prog.map LStmt.bits).sum := by
  induction stmts with
  | nil =>
    intro r r' h
    cases h
    exact ⟨[], .nil, fun p hr _ _ => ⟨p, rfl, hr, rfl, rfl⟩⟩
  | cons s stmts ih =>
    intro r r' h
    rw [List.foldlM_cons] at h
    obtain ⟨r1, h1, h2⟩ := bind_ok h
    obtain ⟨q, hq, hd⟩ := stmt_inv hlen (ht s List.mem_cons_self) h1
    obtain ⟨prog, hf, hp⟩ := ih (fun t h => ht t (List.mem_cons_of_mem _ h)) h2
    refine ⟨q :: prog, .cons hq hf, fun p hr b1 b2 => ?_⟩
    rw [List.map_cons, List.sum_cons] at b1 b2
    obtain ⟨p1, e1, hr1⟩ := hd p hr (by omega) (by omega)
    obtain ⟨s1, s2⟩ := lexec_sizes e1
    obtain ⟨p2, e2, hr2, s3, s4⟩ := hp p1 hr1 (by omega) (by omega)
    refine ⟨p2, ?_, hr2, ?_, ?_⟩
    · rw [List.foldlM_cons, e1]
      exact e2
    · rw [List.map_cons, List.sum_cons]; omega
    · rw [List.map_cons, List.sum_cons]; omega

theorem programOf_trimmed {l : List Text} {s : Text} (h : ProgramOf (fun a s => a = s ∧ Trimmed s) l s) : ∀ a ∈ l, Trimmed a := by
  induction h with
  | nil => simp
  | empty l g t _ _ ih => exact ih
  | cons a l g s g' t _ _ _ hp _ ih =>
    intro b hb
    rcases List.mem_cons.1 hb with rfl | hb
    · rw [hp.1]
      exact hp.2
    · exact ih b hb

theorem loads_inv {lib : Libc} (hlen : ∀ s, (lib.strtod s).2 ≤ s.length) {raw : Text} {R : Reader} (h : loads lib raw = .ok R) :
    ∃ clean prog, Commented raw clean ∧ ProgramOf (LooseStmt lib.strtod) prog clean ∧
      ((prog.map LStmt.qubits).sum < 2 ^ 64 → (prog.map LStmt.bits).sum < 2 ^ 64 → ∃ M, looseMeaning prog = some M ∧ Rel M R ∧
        totalSize M.qregs = (prog.map LStmt.qubits).sum ∧ totalSize M.cregs = (prog.map LStmt.bits).sum) := by
  unfold loads at h
  obtain ⟨stmts, h1, h2⟩ := bind_ok h
  obtain ⟨clean, hc, hp⟩ := split_inv h1
  obtain ⟨prog, hf, hm⟩ := stmts_inv hlen stmts (programOf_trimmed hp) h2
  refine ⟨clean, prog, hc, ProgramOf.map hp (hf.imp ?_), fun b1 b2 => ?_⟩
  · rintro q s hq t ⟨rfl, -⟩
    exact hq
  · obtain ⟨M, e, hr, s1, s2⟩ := hm ⟨[], [], [], false, []⟩ ⟨rfl, consecutive_nil, rfl, consecutive_nil, rfl, rfl, rfl⟩ (by simpa [totalSize] using b1)
      (by simpa [totalSize] using b2)
    exact ⟨M, e, hr, by simpa [totalSize] using s1, by simpa [totalSize] using s2⟩

end Verif.Proofs
