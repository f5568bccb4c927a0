import Verif.Proofs.QasmMeaning

/-! # OpenQASM: one statement -/

namespace Verif.Proofs
open Verif Verif.Spec Verif.Model

/-! ## registers and other simple statements -/

theorem stmt_version {lib : Libc} {num : Numeral → ℝ} {p : QProgram} {r : Reader} (hr : Rel p r) {w g v : Text} (hw : SameWord "openqasm".toList w)
    (hg : Gap g) (hne : g ≠ []) (hv : v ≠ []) (hd : ∀ c ∈ v, c.isDigit = true ∨ c = '.') :
    Sim ((QStmt.version v).exec num p) (r.handle lib (trim (w ++ (g ++ v)))) := by
  have hp : Parts (w ++ (g ++ v)) w (g ++ v) := parts_kw (kw := "openqasm".toList) (by decide) hw (gap_tail hg hne)
  obtain ⟨h1, h2⟩ := handle_words hp
  have hblank : ∀ c ∈ v, isBlank c = false := by
    intro c hc
    rcases hd c hc with h | rfl
    · exact word_blank (digit_word h)
    · decide
  have hlow : lowerCase v = v := by
    unfold lowerCase
    conv_rhs => rw [← List.map_id v]
    refine List.map_congr_left fun c hc => ?_
    rcases hd c hc with h | rfl
    · obtain ⟨a, b⟩ := isDigit_range h
      unfold Char.toLower
      rw [dif_neg]
      · rfl
      · intro hh
        have := UInt32.le_iff_toNat_le.1 hh.1
        have e : (65 : UInt32).toNat = 65 := rfl
        change (65 : Nat) ≤ c.toNat at this
        omega
    · decide
  have hrt : rtrim (g ++ v) = g ++ v := by
    rcases List.eq_nil_or_concat v with e | ⟨u, c, e⟩
    · exact absurd e hv
    · have hc := hblank c (by rw [e]; simp)
      rw [e, List.concat_eq_append, ← List.append_assoc, rtrim_solid hc]
      rfl
  have hdrop : trim ((lowerCase (w ++ rtrim (g ++ v))).drop (t! "openqasm").length) = v := by
    rw [hrt, lowerCase_append, show lowerCase w = t! "openqasm" from hw, List.drop_left, lowerCase_append, gap_lower hg, hlow]
    have := trim_gaps hg gap_nil v
    rw [List.append_nil] at this
    rw [this, trim_of_trimmed (Solid.trimmed hblank)]
  have key : ∀ kw ∈ keywords, startsWithWord (lowerCase (w ++ rtrim (g ++ v))) kw = decide (t! "openqasm" = kw) := by
    intro kw hk
    rw [h2 kw hk, show lowerCase w = t! "openqasm" from hw]
  unfold Reader.handle
  rw [h1]
  dsimp only
  rw [hdrop, key _ (by decide), key _ (by decide), key _ (by decide), key _ (by decide), key _ (by decide), key _ (by decide), key _ (by decide),
    key _ (by decide), key _ (by decide), key _ (by decide)]
  by_cases hv2 : v = "2.0".toList
  · rw [show (QStmt.version v).exec num p = some { p with header := true } by rw [QStmt.exec, if_pos hv2], hv2]
    exact ⟨_, rfl, hr.q, hr.qc, hr.c, hr.cc, hr.circ, hr.warn, rfl⟩
  · rw [show (QStmt.version v).exec num p = none by rw [QStmt.exec, if_neg hv2]]
    rw [if_neg (by simpa using hv2)]
    show ∃ m, Reader.parseGate lib r (w ++ rtrim (g ++ v)) = .error (.throw m)
    rcases parseGate_defined lib r (w ++ rtrim (g ++ v)) with ⟨r', h⟩ | h
    · exfalso
      unfold Reader.parseGate at h
      have htw : (w ++ rtrim (g ++ v)).takeWhile isWord = w := by
        rw [hrt]
        cases g with
        | nil => exact absurd rfl hne
        | cons d g =>
          exact takeWhile_word (fun c hc => hp.word c hc) (hp.tail d rfl)
      dsimp only at h
      rw [htw, show lowerCase w = t! "openqasm" from hw, if_neg (by simpa using hp.ne)] at h
      obtain ⟨⟨ps, rest⟩, -, h⟩ := bind_ok h
      obtain ⟨ops, -, h⟩ := bind_ok h
      obtain ⟨qs, -, h⟩ := bind_ok h
      split at h
      · cases h
      · obtain ⟨d, hd, -⟩ := bind_ok h
        obtain ⟨-, m, hm⟩ := qelib_unknown (name := t! "openqasm") (by decide) ps qs
        rw [hm] at hd
        cases hd
    · exact h

theorem stmt_include {lib : Libc} {num : Numeral → ℝ} {p : QProgram} {r : Reader} (hr : Rel p r) {w g file : Text} (hw : SameWord "include".toList w)
    (hg : Gap g) : Sim ((QStmt.include file).exec num p) (r.handle lib (trim (w ++ (g ++ '"' :: (file ++ ['"']))))) := by
  have hp : Parts (w ++ (g ++ '"' :: (file ++ ['"']))) w (g ++ '"' :: (file ++ ['"'])) :=
    parts_kw (kw := "include".toList) (by decide) hw (gap_tail' hg fun c hc => by cases hc; decide)
  obtain ⟨h1, h2⟩ := handle_words hp
  have hrt : rtrim (g ++ '"' :: (file ++ ['"'])) = g ++ '"' :: (file ++ ['"']) := by
    rw [show g ++ '"' :: (file ++ ['"']) = (g ++ '"' :: file) ++ '"' :: [] by simp, rtrim_solid (by decide)]
    rfl
  have hdrop : trim ((lowerCase (w ++ rtrim (g ++ '"' :: (file ++ ['"'])))).drop (t! "include").length) = '"' :: (lowerCase file ++ ['"']) := by
    rw [hrt, lowerCase_append, show lowerCase w = t! "include" from hw, List.drop_left, lowerCase_append, gap_lower hg,
      show lowerCase ('"' :: (file ++ ['"'])) = '"' :: (lowerCase file ++ ['"']) by unfold lowerCase; rw [List.map_cons, List.map_append]; rfl]
    have := trim_gaps hg gap_nil ('"' :: (lowerCase file ++ ['"']))
    rw [List.append_nil] at this
    rw [this]
    refine trim_of_trimmed ⟨fun c hc => by cases hc; decide, fun c hc => ?_⟩
    rw [← List.cons_append, List.getLast?_concat] at hc
    cases hc
    decide
  have key : ∀ kw ∈ keywords, startsWithWord (lowerCase (w ++ rtrim (g ++ '"' :: (file ++ ['"'])))) kw = decide (t! "include" = kw) := by
    intro kw hk
    rw [h2 kw hk, show lowerCase w = t! "include" from hw]
  unfold Reader.handle
  rw [h1]
  dsimp only
  rw [hdrop, key _ (by decide), key _ (by decide)]
  have hiff : '"' :: (lowerCase file ++ ['"']) = t! "\"qelib1.inc\"" ↔ file.map Char.toLower = "qelib1.inc".toList := by
    rw [show t! "\"qelib1.inc\"" = '"' :: ("qelib1.inc".toList ++ ['"']) by decide, List.cons.injEq]
    exact ⟨fun h => List.append_cancel_right h.2, fun h => ⟨rfl, by rw [show lowerCase file = "qelib1.inc".toList from h]⟩⟩
  by_cases hf : file.map Char.toLower = "qelib1.inc".toList
  · rw [show (QStmt.include file).exec num p = some p by rw [QStmt.exec, if_pos hf]]
    refine ⟨r, ?_, hr⟩
    rw [hiff.2 hf]
    rfl
  · rw [show (QStmt.include file).exec num p = none by rw [QStmt.exec, if_neg hf]]
    show ∃ m, _ = (.error (.throw m) : Res Reader)
    rw [if_neg (by rw [Bool.and_eq_true]; rintro ⟨h, -⟩; exact absurd h (by decide)), if_pos (by decide), if_pos (by rw [Ne, hiff]; exact hf)]
    exact ⟨_, rfl⟩

theorem stmt_qreg {lib : Libc} {num : Numeral → ℝ} {p : QProgram} {r : Reader} (hr : Rel p r) {w g s name : Text} {size : Nat}
    (hw : SameWord "qreg".toList w) (hg : Gap g) (hne : g ≠ []) (he : ElementText (name, size) s) (hs : size < 2 ^ 64) :
    Sim ((QStmt.qreg name size).exec num p) (r.handle lib (trim (w ++ (g ++ s)))) := by
  have hp : Parts (w ++ (g ++ s)) w (g ++ s) := parts_kw (kw := "qreg".toList) (by decide) hw (gap_tail hg hne)
  obtain ⟨h1, h2⟩ := handle_words hp
  have key : ∀ kw ∈ keywords, startsWithWord (lowerCase (w ++ rtrim (g ++ s))) kw = decide (t! "qreg" = kw) := by
    intro kw hk
    rw [h2 kw hk, show lowerCase w = t! "qreg" from hw]
  obtain ⟨e1, e2⟩ := register_read hw hg he hs
  unfold Reader.handle
  rw [h1]
  dsimp only
  rw [key _ (by decide), key _ (by decide), key _ (by decide), show (t! "qreg") = "qreg".toList from rfl, e1, e2]
  rw [if_neg (by rw [Bool.and_eq_true]; rintro ⟨h, -⟩; exact absurd h (by decide)), if_neg (by decide), if_pos (by decide), ok_bind]
  by_cases hl : (r.qregs.lookup name).isSome = true
  · have hm := (lookup_decls name).1 hl
    rw [hr.q] at hm
    rw [show (QStmt.qreg name size).exec num p = none by rw [QStmt.exec, if_pos (.inl hm)], if_pos hl]
    exact ⟨_, rfl⟩
  · have hm : name ∉ p.qregs.map Prod.fst := by rw [← hr.q, ← lookup_decls]; exact hl
    rw [if_neg hl]
    by_cases h0 : size = 0
    · rw [show (QStmt.qreg name size).exec num p = none by rw [QStmt.exec, if_pos (.inr h0)], if_pos h0]
      exact ⟨_, rfl⟩
    · rw [show (QStmt.qreg name size).exec num p = some { p with qregs := p.qregs ++ [(name, size)] } by
        rw [QStmt.exec, if_neg (by simp [hm, h0])], if_neg h0, ok_bind]
      refine ⟨_, rfl, ?_, consecutive_snoc hr.qc (Option.not_isSome_iff_eq_none.1 hl), hr.c, hr.cc, hr.circ, hr.warn, hr.head⟩
      show declsOf (r.qregs ++ [(name, ⟨r.nQubits, size⟩)]) = _
      unfold declsOf
      rw [List.map_append]
      show declsOf r.qregs ++ _ = _
      rw [hr.q]
      rfl

theorem stmt_creg {lib : Libc} {num : Numeral → ℝ} {p : QProgram} {r : Reader} (hr : Rel p r) {w g s name : Text} {size : Nat}
    (hw : SameWord "creg".toList w) (hg : Gap g) (hne : g ≠ []) (he : ElementText (name, size) s) (hs : size < 2 ^ 64) :
    Sim ((QStmt.creg name size).exec num p) (r.handle lib (trim (w ++ (g ++ s)))) := by
  have hp : Parts (w ++ (g ++ s)) w (g ++ s) := parts_kw (kw := "creg".toList) (by decide) hw (gap_tail hg hne)
  obtain ⟨h1, h2⟩ := handle_words hp
  have key : ∀ kw ∈ keywords, startsWithWord (lowerCase (w ++ rtrim (g ++ s))) kw = decide (t! "creg" = kw) := by
    intro kw hk
    rw [h2 kw hk, show lowerCase w = t! "creg" from hw]
  obtain ⟨e1, e2⟩ := register_read hw hg he hs
  unfold Reader.handle
  rw [h1]
  dsimp only
  rw [key _ (by decide), key _ (by decide), key _ (by decide), key _ (by decide), show (t! "creg") = "creg".toList from rfl, e1, e2]
  rw [if_neg (by rw [Bool.and_eq_true]; rintro ⟨h, -⟩; exact absurd h (by decide)), if_neg (by decide), if_neg (by decide), if_pos (by decide), ok_bind]
  by_cases hl : (r.cregs.lookup name).isSome = true
  · have hm := (lookup_decls name).1 hl
    rw [hr.c] at hm
    rw [show (QStmt.creg name size).exec num p = none by rw [QStmt.exec, if_pos (.inl hm)], if_pos hl]
    exact ⟨_, rfl⟩
  · have hm : name ∉ p.cregs.map Prod.fst := by rw [← hr.c, ← lookup_decls]; exact hl
    rw [if_neg hl]
    by_cases h0 : size = 0
    · rw [show (QStmt.creg name size).exec num p = none by rw [QStmt.exec, if_pos (.inr h0)], if_pos h0]
      exact ⟨_, rfl⟩
    · rw [show (QStmt.creg name size).exec num p = some { p with cregs := p.cregs ++ [(name, size)] } by
        rw [QStmt.exec, if_neg (by simp [hm, h0])], if_neg h0, ok_bind]
      refine ⟨_, rfl, hr.q, hr.qc, ?_, consecutive_snoc hr.cc (Option.not_isSome_iff_eq_none.1 hl), hr.circ, hr.warn, hr.head⟩
      show declsOf (r.cregs ++ [(name, ⟨r.nClbits, size⟩)]) = _
      unfold declsOf
      rw [List.map_append]
      show declsOf r.cregs ++ _ = _
      rw [hr.c]
      rfl

theorem stmt_barrier {lib : Libc} {num : Numeral → ℝ} {p : QProgram} {r : Reader} (hr : Rel p r) {w s : Text} (hw : SameWord "barrier".toList w)
    (ht : Tail s) : Sim (QStmt.barrier.exec num p) (r.handle lib (trim (w ++ s))) := by
  have hp : Parts (w ++ s) w s := parts_kw (kw := "barrier".toList) (by decide) hw (tail_word ht)
  obtain ⟨h1, h2⟩ := handle_words hp
  have key : ∀ kw ∈ keywords, startsWithWord (lowerCase (w ++ rtrim s)) kw = decide (t! "barrier" = kw) := by
    intro kw hk
    rw [h2 kw hk, show lowerCase w = t! "barrier" from hw]
  unfold Reader.handle
  rw [h1]
  dsimp only
  rw [key _ (by decide), key _ (by decide), key _ (by decide), key _ (by decide), key _ (by decide)]
  rw [if_neg (by rw [Bool.and_eq_true]; rintro ⟨h, -⟩; exact absurd h (by decide)), if_neg (by decide), if_neg (by decide), if_neg (by decide), if_pos (by decide)]
  exact ⟨_, rfl, hr.q, hr.qc, hr.c, hr.cc, hr.circ, by show r.warnings ++ _ = _; rw [hr.warn], hr.head⟩

theorem stmt_refused {lib : Libc} {num : Numeral → ℝ} {p : QProgram} (r : Reader) {kw w s : Text} (hk : kw ∈ refusedWords) (hw : SameWord kw w)
    (ht : Tail s) : Sim (QStmt.refused.exec num p) (r.handle lib (trim (w ++ s))) := by
  have hp : Parts (w ++ s) w s := parts_kw (refused_word hk) hw (tail_word ht)
  obtain ⟨h1, h2⟩ := handle_words hp
  have key : ∀ k ∈ keywords, startsWithWord (lowerCase (w ++ rtrim s)) k = decide (kw = k) := by
    intro k hk
    rw [h2 k hk, show lowerCase w = kw from hw]
  unfold Reader.handle
  rw [h1]
  dsimp only
  rw [key _ (by decide), key _ (by decide), key _ (by decide), key _ (by decide), key _ (by decide), key _ (by decide), key _ (by decide),
    key _ (by decide), key _ (by decide), key _ (by decide)]
  have hk' : kw = t! "reset" ∨ kw = t! "if" ∨ kw = t! "gate" ∨ kw = t! "opaque" := by simpa [refusedWords] using hk
  show ∃ m, _ = (.error (.throw m) : Res Reader)
  rcases hk' with rfl | rfl | rfl | rfl <;> exact ⟨_, rfl⟩

/-! ## gates -/

theorem comma_head {l : List (Text × Nat)} {s : Text} (h : CommaText ElementText l s) : ∃ c t, trim s = c :: t ∧ isWord c = true := by
  have ht := trimmed_trim s
  have h' := comma_trim (fun _ _ => element_trimmed) h
  have key : ∀ {x : Text × Nat} {g u : Text} {rest : Text}, Gap g → ElementText x u → Trimmed (g ++ u ++ rest) → ∃ c t, g ++ u ++ rest = c :: t ∧ isWord c = true := by
    intro x g u rest hg hu ht
    cases g with
    | cons d g =>
      have h1 := ht.1 d rfl
      rw [gap_blank hg d List.mem_cons_self] at h1
      cases h1
    | nil =>
      obtain ⟨name, i, g, g', g'', ds, h1, h2, h3, h4, h5⟩ := hu
      cases name with
      | nil => exact absurd rfl h1.1
      | cons c name => exact ⟨c, _, rfl, ident_chars h1 c List.mem_cons_self⟩
  generalize trim s = u at ht h'
  cases h' with
  | one a g s g' hg hg' hs =>
    rw [← List.append_assoc] at ht ⊢
    exact key hg hs ht
  | cons a l g s g' t hg hg' hs =>
    have e : g ++ (s ++ g') ++ ',' :: t = g ++ s ++ (g' ++ ',' :: t) := by simp
    rw [e] at ht ⊢
    exact key hg hs ht

theorem gap_comma {g : Text} (hg : Gap g) : splitCommaList g = .ok [] := by
  unfold splitCommaList
  have := (neutral_gap hg).1 0 [] [] []
  rw [List.append_nil] at this
  rw [this, List.nil_append, commaLoop, if_neg (by simp), ok_bind]
  by_cases h : g = []
  · subst h
    rfl
  · rw [show g.isEmpty = false by simpa using h]
    have : trim g = [] := by
      rw [trim_eq, skip_nil hg]
      rfl
    rw [this]
    rfl

/-- the parameters of a gate -/
theorem params_read {lib : Libc} {num : Numeral → ℝ} (hs : StrtodReads lib.strtod num) {as : List AngleExpr} {s : Text} (ha : AnglesText as s)
    (u : Text) : Agree ((as.mapM (AngleExpr.eval num)).map fun θs => (θs, trim u)) (parseParams lib ('(' :: (s ++ ')' :: u))) := by
  have hclose : closeIndex ('(' :: (s ++ ')' :: u)) 0 0 = some (1 + s.length) := by
    have pass : closeIndex (s ++ ')' :: u) 1 1 = closeIndex (')' :: u) 1 (1 + s.length) := by
      cases ha with
      | none g hg => exact (neutral_gap hg).2 _ 1 1 (by decide)
      | some l s h => exact comma_close (fun _ _ => angle_neutral) h _ (by decide) 1
    rw [closeIndex.eq_def]
    simp only [beq_self_eq_true, if_true, show ('(' == ')') = false by decide, Bool.false_eq_true, if_false, show ((0 + 1 : Int) == 0) = false by decide]
    rw [show (0 + 1 : Int) = 1 from rfl, pass, closeIndex.eq_def]
    rfl
  obtain ⟨parts, hp, hf⟩ : ∃ parts, splitCommaList s = .ok parts ∧ List.Forall₂ (fun a t => Agree (AngleExpr.eval num a) (parseAngle lib t)) as parts := by
    cases ha with
    | none g hg => exact ⟨[], gap_comma hg, .nil⟩
    | some l s h =>
      obtain ⟨found, h1, h2⟩ := comma_split (fun _ _ h => ⟨angle_neutral h, angle_ne h⟩) h
      refine ⟨found, h1, h2.imp ?_⟩
      rintro a t ⟨u, hu, rfl⟩
      exact parseAngle_agree hs hu
  unfold parseParams
  rw [hclose]
  dsimp only
  have e1 : ((('(' :: (s ++ ')' :: u)).drop 1).take (1 + s.length - 1)) = s := by simp
  have e2 : ('(' :: (s ++ ')' :: u)).drop (1 + s.length + 1) = u := by
    rw [show 1 + s.length + 1 = (s.length + 1) + 1 by omega, List.drop_succ_cons, List.drop_append]
    simp
  rw [e1, e2, hp, ok_bind]
  have := agree_mapM hf
  cases hm : as.mapM (AngleExpr.eval num) with
  | none =>
    rw [hm] at this
    obtain ⟨m, hm'⟩ := this
    exact ⟨m, by rw [hm']; rfl⟩
  | some θs =>
    rw [hm] at this
    rw [show parts.mapM (parseAngle lib) = .ok θs from this]
    exact rfl

theorem operands_read {regs : Registers} {total : Nat} (hc : Consecutive regs total) (ht : totalSize (declsOf regs) < 2 ^ 64) {ops : List (Text × Nat)}
    {s : Text} (h : CommaText ElementText ops s) : Agree (ops.mapM fun o => flatIndex (declsOf regs) o.1 o.2) (do
      let operands ← splitCommaList (trim s)
      operands.mapM fun operand => parseIndexedRegister operand regs) := by
  obtain ⟨found, h1, h2⟩ := comma_split (fun _ _ h => ⟨element_neutral h, by rw [element_trim h]; exact (element_trimmed h).2⟩)
    (comma_trim (fun _ _ => element_trimmed) h)
  rw [h1, ok_bind]
  refine agree_mapM (h2.imp ?_)
  rintro x t ⟨u, hu, rfl⟩
  rw [element_trim hu]
  exact element_flat hc ht hu

/-- adding lines at the end of a circuit -/
theorem build_snoc {ls : List Line} {C : Circuit} (h : buildCircuit ls = .ok C) (l : Line) : buildCircuit (ls ++ [l]) = addLine C l := by
  unfold buildCircuit at *
  rw [List.foldlM_append, h, ok_bind]
  simp

theorem add_sim {p : QProgram} {r : Reader} (hr : Rel p r) {d : GateDesc} {g : UGate} (hg : d.build = .ok g) :
    ∃ r', r.add d = .ok r' ∧ Rel { p with instrs := p.instrs ++ [.gate d] } r' := by
  refine ⟨{ r with circuit := r.circuit.addGate (.det g) }, ?_, hr.q, hr.qc, hr.c, hr.cc, ?_, hr.warn, hr.head⟩
  · unfold Reader.add
    rw [hg]
    rfl
  · show buildCircuit ((p.instrs ++ [Instr.gate d]).map fun i => ⟨i, none⟩) = _
    rw [List.map_append, List.map_singleton, build_snoc hr.circ]
    unfold addLine
    rw [show Instr.build (.gate d) = .ok (.inl (.det g)) by simp only [Instr.build, hg]; rfl, ok_bind]
    rfl

theorem stmt_gate {lib : Libc} {num : Numeral → ℝ} {p : QProgram} {r : Reader} (hr : Rel p r) (hq : totalSize p.qregs < 2 ^ 64) {name s t : Text}
    {as : List AngleExpr} {ops : List (Text × Nat)} (hp : Parts (name ++ t) name t) (hres : name.map Char.toLower ∉ reservedWords)
    (ho : CommaText ElementText ops s) (hpar : Agree ((as.mapM (AngleExpr.eval num)).map fun θs => (θs, trim s)) (parseParams lib (trim t))) :
    Sim ((QStmt.gate name as ops).exec num p) (r.handle lib (trim (name ++ t))) := by
  obtain ⟨h1, h2⟩ := handle_words hp
  have key : ∀ kw ∈ keywords, startsWithWord (lowerCase (name ++ rtrim t)) kw = false := by
    intro kw hk
    rw [h2 kw hk, decide_eq_false_iff_not]
    intro e
    exact hres (show lowerCase name ∈ reservedWords by rw [e]; exact hk)
  have hh : r.handle lib (trim (name ++ t)) = r.parseGate lib (name ++ rtrim t) := by
    unfold Reader.handle
    rw [h1]
    dsimp only
    rw [key _ (by decide), key _ (by decide), key _ (by decide), key _ (by decide), key _ (by decide), key _ (by decide),
      key _ (by decide), key _ (by decide), key _ (by decide), key _ (by decide)]
    rfl
  have hw : (name ++ rtrim t).takeWhile isWord = name := by
    cases hrt : rtrim t with
    | nil => rw [List.append_nil]; exact takeWhile_all hp.word
    | cons d u => exact takeWhile_word hp.word (hp.tail d (rtrim_head t d (by rw [hrt]; rfl)))
  rw [hh]
  unfold Reader.parseGate
  dsimp only
  rw [hw, if_neg (by simpa using hp.ne), List.drop_left, trim_rtrim]
  -- the reader after the check for the header
  obtain ⟨r0, e0, hr0⟩ : ∃ r0, (if r.sawVersion = true then r else { r with warnings := r.warnings ++ ["OPENQASM 2.0 header is missing"], sawVersion := true }) = r0 ∧
      Rel { p with header := true, warnings := p.warnings ++ if p.header then [] else ["OPENQASM 2.0 header is missing"] } r0 := by
    by_cases hb : p.header = true
    · refine ⟨r, if_pos (hr.head.trans hb), hr.q, hr.qc, hr.c, hr.cc, hr.circ, ?_, hr.head.trans hb⟩
      dsimp only
      rw [if_pos hb, List.append_nil, hr.warn]
    · refine ⟨_, if_neg (by rw [hr.head]; exact hb), hr.q, hr.qc, hr.c, hr.cc, hr.circ, ?_, rfl⟩
      dsimp only
      rw [if_neg hb, hr.warn]
  rw [e0]
  unfold QStmt.exec
  dsimp only
  cases hm : as.mapM (AngleExpr.eval num) with
  | none =>
    rw [hm] at hpar
    obtain ⟨m, hm'⟩ := hpar
    exact ⟨m, by rw [hm']; rfl⟩
  | some θs =>
    rw [hm] at hpar
    rw [show parseParams lib (trim t) = .ok (θs, trim s) from hpar, ok_bind, Option.bind_some]
    dsimp only
    have hops := operands_read hr0.qc (by rw [hr0.q]; exact hq) ho
    rw [hr0.q] at hops
    dsimp only at hops
    cases hqs : ops.mapM (fun o => flatIndex p.qregs o.1 o.2) with
    | none =>
      rw [hqs] at hops
      obtain ⟨m, hm'⟩ := hops
      refine ⟨m, ?_⟩
      cases hsp : splitCommaList (trim s) with
      | error e =>
        rw [hsp] at hm'
        rw [show (Except.error e : Res (List Text)) = .error (.throw m) from ?_]
        · rfl
        · cases hm'
          rfl
      | ok parts =>
        rw [hsp, ok_bind] at hm'
        rw [ok_bind, hm']
        rfl
    | some qs =>
      rw [hqs] at hops
      change (do
        let operands ← splitCommaList (trim s)
        operands.mapM fun operand => parseIndexedRegister operand r0.qregs) = Except.ok qs at hops
      obtain ⟨parts, hsp, hmp⟩ := bind_ok hops
      rw [hsp, ok_bind, hmp, ok_bind, Option.bind_some]
      by_cases hnd : qs.Nodup
      · simp only [hnd, not_true_eq_false, if_false]
        have hga := gate_agree (name.map Char.toLower) θs qs
        change Agree _ (gateNamed (if lowerCase name = t! "u" then t! "u3" else lowerCase name) θs qs) at hga
        cases hg : qelibGate (name.map Char.toLower) θs qs with
        | none =>
          rw [hg] at hga
          obtain ⟨m, hm'⟩ := hga
          exact ⟨m, by rw [hm']; rfl⟩
        | some d =>
          rw [hg] at hga
          rw [show gateNamed (if lowerCase name = t! "u" then t! "u3" else lowerCase name) θs qs = .ok d from hga, ok_bind, Option.bind_some]
          cases d with
          | none =>
            rw [if_neg (by simp)]
            refine ⟨r0, rfl, ?_⟩
            have := hr0
            simpa using this
          | some d =>
            have hb := qelib_build hg hnd
            by_cases hbig : ∃ q ∈ qs, 64 ≤ q
            · rw [if_pos hbig] at hb
              obtain ⟨m, hm'⟩ := hb
              rw [if_pos ⟨rfl, hbig⟩]
              exact ⟨m, by show Reader.add r0 d = _; unfold Reader.add; rw [hm']; rfl⟩
            · rw [if_neg hbig] at hb
              obtain ⟨g, hg⟩ := hb
              rw [if_neg (fun h => hbig h.2)]
              obtain ⟨r', h1, h2⟩ := add_sim hr0 hg
              exact ⟨r', h1, h2⟩
      · rw [if_pos hnd, if_pos hnd]
        exact ⟨_, rfl⟩

/-! ## measurements -/

theorem meas_built (q c : Nat) : if 64 ≤ q then ∃ m, mkMeas q c false = .error (.throw m) else ∃ g, mkMeas q c false = .ok g := by
  unfold mkMeas
  split
  · rename_i h
    rcases vectorToMask_defined [q] with ⟨m, hm⟩ | ⟨e, he⟩
    · have := (vectorToMask_ok_iff [q]).1 ⟨m, hm⟩
      exact absurd (this.2 q List.mem_cons_self) (by omega)
    · exact ⟨e, by rw [he]; rfl⟩
  · rename_i h
    obtain ⟨m, hm⟩ := (vectorToMask_ok_iff [q]).2 ⟨by simp, by simpa using h⟩
    rw [hm, ok_bind]
    unfold gateBase
    rw [if_neg (by simp)]
    exact ⟨_, rfl⟩

theorem meas_loop {p : QProgram} {r : Reader} (hr : Rel p r) (l : List (Nat × Nat)) :
    Sim (if ∃ x ∈ l, 64 ≤ x.1 then none else some { p with instrs := p.instrs ++ l.map fun x => .measure x.1 x.2 false })
      (l.foldlM (fun (r : Reader) x => do
        let g ← mkMeas x.1 x.2 false
        pure { r with circuit := r.circuit.addGate (.meas g) }) r) := by
  induction l generalizing p r with
  | nil =>
    rw [if_neg (by simp)]
    refine ⟨r, rfl, ?_⟩
    simpa using hr
  | cons x l ih =>
    rw [List.foldlM_cons]
    have hb := meas_built x.1 x.2
    by_cases h : 64 ≤ x.1
    · rw [if_pos h] at hb
      obtain ⟨m, hm⟩ := hb
      rw [if_pos ⟨x, List.mem_cons_self, h⟩, hm]
      exact ⟨m, rfl⟩
    · rw [if_neg h] at hb
      obtain ⟨g, hg⟩ := hb
      rw [hg, ok_bind]
      have hr' : Rel { p with instrs := p.instrs ++ [.measure x.1 x.2 false] } { r with circuit := r.circuit.addGate (.meas g) } := by
        refine ⟨hr.q, hr.qc, hr.c, hr.cc, ?_, hr.warn, hr.head⟩
        show buildCircuit ((p.instrs ++ [Instr.measure x.1 x.2 false]).map fun i => ⟨i, none⟩) = _
        rw [List.map_append, List.map_singleton, build_snoc hr.circ]
        unfold addLine
        rw [show Instr.build (.measure x.1 x.2 false) = .ok (.inl (.meas g)) by simp only [Instr.build, hg]; rfl, ok_bind]
        rfl
      have := ih hr'
      have hiff : (∃ y ∈ x :: l, 64 ≤ y.1) ↔ ∃ y ∈ l, 64 ≤ y.1 := by simp [h]
      simp only [hiff]
      rw [List.map_cons, show p.instrs ++ Instr.measure x.1 x.2 false :: l.map (fun x => Instr.measure x.1 x.2 false) =
        (p.instrs ++ [Instr.measure x.1 x.2 false]) ++ l.map (fun x => Instr.measure x.1 x.2 false) by simp]
      exact this

theorem mapM_some {α β : Type} {f : α → Option β} {g : α → β} {l : List α} (h : ∀ a ∈ l, f a = some (g a)) : l.mapM f = some (l.map g) := by
  induction l with
  | nil => rfl
  | cons a l ih =>
    rw [List.mapM_cons, h a List.mem_cons_self, ih fun b hb => h b (List.mem_cons_of_mem _ hb)]
    rfl

/-- an operand of `measure` -/
theorem measOperand_read {regs : Registers} {total : Nat} (hc : Consecutive regs total) (ht : totalSize (declsOf regs) < 2 ^ 64) {o : QOperand} {s : Text}
    (h : OperandText o s) : match o.elements (declsOf regs) with
      | some l => ∃ x, parseMeasureOperand s regs = .ok x ∧ l = (List.range x.size).map fun i => (x.offset + i) % 2 ^ 64
      | none => ∃ m, parseMeasureOperand s regs = .error (.throw m) := by
  cases h with
  | element name i s h =>
    have hf := element_flat hc ht h
    have hany : (trim s).any (fun c => c == '[' || c == ']') = true := by
      rw [element_trim h]
      obtain ⟨name, i, g, g', g'', ds, h1, h2, h3, h4, h5⟩ := h
      simp
    unfold parseMeasureOperand
    dsimp only
    rw [hany, if_pos rfl, element_trim h]
    unfold QOperand.elements
    dsimp only
    dsimp only at hf
    cases he : flatIndex (declsOf regs) name i with
    | none =>
      rw [he] at hf
      obtain ⟨m, hm⟩ := hf
      exact ⟨m, by rw [hm]; rfl⟩
    | some a =>
      rw [he] at hf
      rw [show parseIndexedRegister s regs = .ok a from hf, ok_bind]
      refine ⟨_, rfl, ?_⟩
      have ha : a < 2 ^ 64 := by
        have := flatIndex_lt he
        omega
      rw [List.range_one, List.map_singleton, Nat.add_zero, Nat.mod_eq_of_lt ha]
  | whole name h =>
    have hs : trim s = s := trim_of_trimmed (Solid.trimmed fun c hc => word_blank (ident_chars h c hc))
    have hany : (trim s).any (fun c => c == '[' || c == ']') = false := by
      rw [hs, List.any_eq_false]
      intro c hc
      simp [word_ne (ident_chars h c hc) (d := '[') (by decide), word_ne (ident_chars h c hc) (d := ']') (by decide)]
    unfold parseMeasureOperand
    dsimp only
    rw [hany, if_neg (by simp), hs]
    unfold QOperand.elements
    dsimp only
    cases hl : regs.lookup s with
    | none =>
      have : (declsOf regs).lookup s = none := by
        rw [List.lookup_eq_none_iff]
        intro p hp
        obtain ⟨x, hx, rfl⟩ := List.mem_map.1 hp
        have := lookup_none_ne hl x hx
        simpa using fun e => this e.symm
      rw [this]
      exact ⟨_, rfl⟩
    | some x =>
      obtain ⟨b, a, e, hoff, hbf⟩ := hc.1 s x hl
      have h1 : (declsOf regs).lookup s = some x.size := by
        rw [e]
        unfold declsOf
        rw [List.map_append, List.lookup_append, List.map_cons]
        rw [show (b.map fun p => (p.1, p.2.size)).lookup s = none from ?_]
        · simp
        · rw [List.lookup_eq_none_iff]
          intro p hp
          obtain ⟨y, hy, rfl⟩ := List.mem_map.1 hp
          simpa using fun e => hbf y hy e.symm
      rw [h1, Option.bind_some]
      have hsum : totalSize (declsOf b) + x.size ≤ totalSize (declsOf regs) := by
        rw [e]
        unfold declsOf
        rw [List.map_append, totalSize_append, List.map_cons]
        show _ ≤ _ + (x.size + _)
        omega
      have h2 : (List.range x.size).mapM (fun i => flatIndex (declsOf regs) s i) = some ((List.range x.size).map fun i => (x.offset + i) % 2 ^ 64) := by
        refine mapM_some fun i hi => ?_
        rw [e, flatIndex_before hbf, if_pos (List.mem_range.1 hi), hoff]
        have := List.mem_range.1 hi
        rw [Nat.mod_eq_of_lt (show totalSize (declsOf b) < 2 ^ 64 by omega), Nat.mod_eq_of_lt (by omega)]
      rw [h2]
      exact ⟨x, rfl, rfl⟩

theorem arrow_found {s rest : Text} (h : '-' ∉ s) : findArrow (s ++ '-' :: '>' :: rest) = some s.length := by
  induction s with
  | nil => rfl
  | cons c s ih =>
    have hc : (c == '-') = false := by
      rw [beq_eq_false_iff_ne]
      exact fun e => h (by rw [e]; exact List.mem_cons_self)
    rw [List.cons_append, findArrow.eq_def]
    dsimp only
    rw [hc, ih fun hh => h (List.mem_cons_of_mem _ hh)]
    rfl

theorem operand_trimmed {o : QOperand} {s : Text} (h : OperandText o s) : Trimmed s ∧ s ≠ [] := by
  cases h with
  | element name i s h => exact element_trimmed h
  | whole name h => exact ⟨Solid.trimmed fun c hc => word_blank (ident_chars h c hc), h.1⟩

theorem gap_arrow {g : Text} (hg : Gap g) : '-' ∉ g := by
  intro h
  have key : ∀ c ∈ [' ', '\t', '\n', '\x0b', '\x0c', '\r'], c ≠ '-' := by decide
  exact key _ (hg _ h) rfl

theorem operand_arrow {o : QOperand} {s : Text} (h : OperandText o s) : '-' ∉ s := by
  have word : ∀ {s : Text}, (∀ c ∈ s, isWord c = true) → '-' ∉ s := fun hs h => word_ne (hs _ h) (d := '-') (by decide) rfl
  cases h with
  | whole name h => exact word (ident_chars h)
  | element name i s h =>
    obtain ⟨name, i, g, g', g'', ds, h1, h2, h3, h4, h5⟩ := h
    have a1 := word (ident_chars h1)
    have a2 := word fun c hc => digit_word (h5.2.1 c hc)
    simp [a1, a2, gap_arrow h2, gap_arrow h3, gap_arrow h4]

theorem zip_range {n : Nat} (f g : Nat → Nat) : List.zipWith (fun q c => Instr.measure q c false) ((List.range n).map f) ((List.range n).map g) =
    ((List.range n).map fun i => (f i, g i)).map fun x => Instr.measure x.1 x.2 false := by
  rw [List.zipWith_map_left, List.zipWith_map_right, List.zipWith_self, List.map_map]
  rfl

theorem stmt_measure {lib : Libc} {num : Numeral → ℝ} {p : QProgram} {r : Reader} (hr : Rel p r) (hq : totalSize p.qregs < 2 ^ 64)
    (hb : totalSize p.cregs < 2 ^ 64) {w g s g' g'' t : Text} {q c : QOperand} (hw : SameWord "measure".toList w) (hg : Gap g) (hne : g ≠ [])
    (hg' : Gap g') (hg'' : Gap g'') (hs : OperandText q s) (ht : OperandText c t) :
    Sim ((QStmt.measure q c).exec num p) (r.handle lib (trim (w ++ (g ++ (s ++ g' ++ '-' :: '>' :: (g'' ++ t)))))) := by
  generalize hX : s ++ g' ++ '-' :: '>' :: (g'' ++ t) = X
  have hp : Parts (w ++ (g ++ X)) w (g ++ X) := parts_kw (kw := "measure".toList) (by decide) hw (gap_tail hg hne)
  obtain ⟨h1, h2⟩ := handle_words hp
  have key : ∀ kw ∈ keywords, startsWithWord (lowerCase (w ++ rtrim (g ++ X))) kw = decide (t! "measure" = kw) := by
    intro kw hk
    rw [h2 kw hk, show lowerCase w = t! "measure" from hw]
  have hh : r.handle lib (trim (w ++ (g ++ X))) = r.parseMeasure (w ++ rtrim (g ++ X)) := by
    unfold Reader.handle
    rw [h1]
    dsimp only
    rw [key _ (by decide), key _ (by decide), key _ (by decide), key _ (by decide), key _ (by decide), key _ (by decide)]
    rfl
  have htX : trim X = X := by
    obtain ⟨a1, a2⟩ := operand_trimmed hs
    obtain ⟨b1, b2⟩ := operand_trimmed ht
    refine trim_of_trimmed ⟨fun d hd => a1.1 d ?_, fun d hd => b1.2 d ?_⟩
    · rw [← hX] at hd
      cases s with
      | nil => exact absurd rfl a2
      | cons x s => exact hd
    · rw [← hX] at hd
      have e : s ++ g' ++ '-' :: '>' :: (g'' ++ t) = (s ++ g' ++ '-' :: '>' :: g'') ++ t := by simp
      rw [e, List.getLast?_append_of_ne_nil _ b2] at hd
      exact hd
  rw [hh]
  unfold Reader.parseMeasure
  have hrest : trim ((w ++ rtrim (g ++ X)).drop (t! "measure").length) = X := by
    rw [show (w ++ rtrim (g ++ X)).drop (t! "measure").length = rtrim (g ++ X) from keyword_drop (kw := "measure".toList) hw _, trim_rtrim]
    have := trim_gaps hg gap_nil X
    rw [List.append_nil] at this
    rw [this, htX]
  dsimp only
  rw [hrest]
  have harrow : findArrow X = some (s ++ g').length := by
    rw [← hX]
    refine arrow_found ?_
    rw [List.mem_append]
    rintro (h | h)
    · exact operand_arrow hs h
    · exact gap_arrow hg' h
  have e1 : trim (X.take (s ++ g').length) = s := by
    rw [← hX, List.take_left]
    have := trim_gaps gap_nil hg' s
    rw [List.nil_append] at this
    rw [this, trim_of_trimmed (operand_trimmed hs).1]
  have e2 : trim (X.drop ((s ++ g').length + 2)) = t := by
    rw [← hX, List.drop_append, List.drop_eq_nil_of_le (by omega), List.nil_append, Nat.add_sub_cancel_left]
    show trim (g'' ++ t) = t
    have := trim_gaps hg'' gap_nil t
    rw [List.append_nil] at this
    rw [this, trim_of_trimmed (operand_trimmed ht).1]
  rw [harrow]
  dsimp only
  rw [e1, e2]
  have m1 := measOperand_read hr.qc (by rw [hr.q]; exact hq) hs
  have m2 := measOperand_read hr.cc (by rw [hr.c]; exact hb) ht
  rw [hr.q] at m1
  rw [hr.c] at m2
  unfold QStmt.exec
  dsimp only
  cases hqs : q.elements p.qregs with
  | none =>
    rw [hqs] at m1
    obtain ⟨m, hm⟩ := m1
    exact ⟨m, by rw [hm]; rfl⟩
  | some qs =>
    rw [hqs] at m1
    obtain ⟨x, hx, rfl⟩ := m1
    rw [hx, ok_bind, Option.bind_some]
    cases hcs : c.elements p.cregs with
    | none =>
      rw [hcs] at m2
      obtain ⟨m, hm⟩ := m2
      exact ⟨m, by rw [hm]; rfl⟩
    | some cs =>
      rw [hcs] at m2
      obtain ⟨y, hy, rfl⟩ := m2
      rw [hy, ok_bind, Option.bind_some]
      by_cases hsz : x.size = y.size
      · rw [if_neg (show ¬ x.size ≠ y.size from not_not.2 hsz)]
        have := meas_loop hr ((List.range x.size).map fun i => ((x.offset + i) % 2 ^ 64, (y.offset + i) % 2 ^ 64))
        rw [List.foldlM_map, ← zip_range] at this
        have hiff : ((List.map (fun i => (x.offset + i) % 2 ^ 64) (List.range x.size)).length ≠
            (List.map (fun i => (y.offset + i) % 2 ^ 64) (List.range y.size)).length ∨
            ∃ q ∈ List.map (fun i => (x.offset + i) % 2 ^ 64) (List.range x.size), 64 ≤ q) ↔
            ∃ z ∈ (List.range x.size).map fun i => ((x.offset + i) % 2 ^ 64, (y.offset + i) % 2 ^ 64), 64 ≤ z.1 := by
          simp [hsz]
        simp only [hiff]
        rw [← hsz]
        exact this
      · rw [if_pos (.inl (by simpa using hsz)), if_pos hsz]
        exact ⟨_, rfl⟩

/-! ## programs -/

theorem stmt_sim {lib : Libc} {num : Numeral → ℝ} (hs : StrtodReads lib.strtod num) {p : QProgram} {r : Reader} (hr : Rel p r) {q : QStmt} {s : Text}
    (h : StmtText q s) (hq : totalSize p.qregs + q.qubits < 2 ^ 64) (hb : totalSize p.cregs + q.bits < 2 ^ 64) :
    Sim (q.exec num p) (r.handle lib (trim s)) := by
  cases h with
  | version w g v hw hg hne hv hd => rw [List.append_assoc]; exact stmt_version hr hw hg hne hv hd
  | «include» w g file hw hg hf => rw [List.append_assoc]; exact stmt_include hr hw hg
  | qreg w g name s size hw hg hne he =>
    rw [List.append_assoc]
    refine stmt_qreg hr hw hg hne he ?_
    change totalSize p.qregs + size < 2 ^ 64 at hq
    omega
  | creg w g name s size hw hg hne he =>
    rw [List.append_assoc]
    refine stmt_creg hr hw hg hne he ?_
    change totalSize p.cregs + size < 2 ^ 64 at hb
    omega
  | barrier w s hw ht => exact stmt_barrier hr hw ht
  | refused k w s hk hw ht => exact stmt_refused r hk hw ht
  | gate name g s ops hn hres hg hne hc =>
    rw [List.append_assoc]
    refine stmt_gate hr (by omega) ⟨rfl, hn.1, ident_chars hn, gap_tail hg hne⟩ hres hc ?_
    have e := trim_gaps hg gap_nil s
    rw [List.append_nil] at e
    rw [e]
    obtain ⟨c, u, hu, hw⟩ := comma_head hc
    rw [hu]
    show parseParams lib (c :: u) = .ok ([], c :: u)
    have hne' : c ≠ '(' := word_ne hw (by decide)
    unfold parseParams
    split
    · rename_i h
      cases h
      exact absurd rfl hne'
    · rfl
  | angles name g s t as ops hn hres hg ha hc =>
    rw [List.append_assoc]
    refine stmt_gate hr (by omega) ⟨rfl, hn.1, ident_chars hn, gap_tail' hg fun c hc => by cases hc; decide⟩ hres hc ?_
    have e := trim_gaps hg gap_nil ('(' :: (s ++ ')' :: t))
    rw [List.append_nil] at e
    have e' : trim ('(' :: (s ++ ')' :: t)) = '(' :: (s ++ ')' :: rtrim t) := by
      rw [trim_eq, show skipSpaces ('(' :: (s ++ ')' :: t)) = '(' :: (s ++ ')' :: t) from List.dropWhile_cons_of_neg (by decide)]
      rw [show '(' :: (s ++ ')' :: t) = ('(' :: s) ++ ')' :: t from rfl, rtrim_solid (by decide)]
      rfl
    rw [e, e', ← trim_rtrim t]
    exact params_read hs ha (rtrim t)
  | measure w g s g' g'' t q c hw hg hne hg' hg'' h1 h2 =>
    rw [List.append_assoc]
    exact stmt_measure hr (by omega) (by omega) hw hg hne hg' hg'' h1 h2

theorem exec_sizes {num : Numeral → ℝ} {p p' : QProgram} {q : QStmt} (h : q.exec num p = some p') :
    totalSize p'.qregs = totalSize p.qregs + q.qubits ∧ totalSize p'.cregs = totalSize p.cregs + q.bits := by
  cases q with
  | version v => rw [QStmt.exec] at h; split at h <;> cases h; exact ⟨rfl, rfl⟩
  | «include» f => rw [QStmt.exec] at h; split at h <;> cases h; exact ⟨rfl, rfl⟩
  | qreg name size =>
    rw [QStmt.exec] at h
    split at h <;> cases h
    exact ⟨by simp [totalSize, QStmt.qubits], rfl⟩
  | creg name size =>
    rw [QStmt.exec] at h
    split at h <;> cases h
    exact ⟨rfl, by simp [totalSize, QStmt.bits]⟩
  | barrier => rw [QStmt.exec] at h; cases h; exact ⟨rfl, rfl⟩
  | refused => rw [QStmt.exec] at h; cases h
  | gate name as ops =>
    rw [QStmt.exec] at h
    obtain ⟨θs, -, h⟩ := Option.bind_eq_some_iff.1 h
    obtain ⟨qs, -, h⟩ := Option.bind_eq_some_iff.1 h
    split at h
    · cases h
    obtain ⟨d, -, h⟩ := Option.bind_eq_some_iff.1 h
    split at h <;> cases h
    exact ⟨rfl, rfl⟩
  | measure q c =>
    rw [QStmt.exec] at h
    obtain ⟨qs, -, h⟩ := Option.bind_eq_some_iff.1 h
    obtain ⟨cs, -, h⟩ := Option.bind_eq_some_iff.1 h
    split at h <;> cases h
    exact ⟨rfl, rfl⟩

theorem stmts_sim {lib : Libc} {num : Numeral → ℝ} (hs : StrtodReads lib.strtod num) {l : List QStmt} {stmts : List Text}
    (hf : List.Forall₂ (fun q t => ∃ s, StmtText q s ∧ t = trim s) l stmts) {p : QProgram} {r : Reader} (hr : Rel p r)
    (hq : totalSize p.qregs + (l.map QStmt.qubits).sum < 2 ^ 64) (hb : totalSize p.cregs + (l.map QStmt.bits).sum < 2 ^ 64) :
    Sim (l.foldlM (QStmt.exec num) p) (stmts.foldlM (Reader.handle lib) r) := by
  induction hf generalizing p r with
  | nil => exact ⟨r, rfl, hr⟩
  | @cons q t l stmts h _ ih =>
    obtain ⟨s, hst, rfl⟩ := h
    rw [List.map_cons, List.sum_cons] at hq hb
    have := stmt_sim hs hr hst (by omega) (by omega)
    rw [List.foldlM_cons, List.foldlM_cons]
    cases he : q.exec num p with
    | none =>
      rw [he] at this
      obtain ⟨m, hm⟩ := this
      exact ⟨m, by rw [hm]; rfl⟩
    | some p' =>
      rw [he] at this
      obtain ⟨r', e, hr'⟩ := this
      obtain ⟨h1, h2⟩ := exec_sizes he
      rw [e, ok_bind]
      exact ih hr' (by omega) (by omega)

theorem loads_sim {lib : Libc} {num : Numeral → ℝ} (hs : StrtodReads lib.strtod num) {l : List QStmt} {raw clean : Text} (hc : Commented raw clean)
    (h : ProgramText l clean) (hq : (l.map QStmt.qubits).sum < 2 ^ 64) (hb : (l.map QStmt.bits).sum < 2 ^ 64) :
    Sim (programMeaning num l) (loads lib raw) := by
  obtain ⟨stmts, e, hf⟩ := split_program hc h
  unfold loads programMeaning
  rw [e, ok_bind]
  refine stmts_sim hs hf ⟨rfl, consecutive_nil, rfl, consecutive_nil, rfl, rfl, rfl⟩ ?_ ?_
  · simpa [totalSize] using hq
  · simpa [totalSize] using hb

theorem meaning_sizes {num : Numeral → ℝ} {l : List QStmt} {M : QProgram} (h : programMeaning num l = some M) :
    totalSize M.qregs = (l.map QStmt.qubits).sum ∧ totalSize M.cregs = (l.map QStmt.bits).sum := by
  have key : ∀ (l : List QStmt) (p M : QProgram), l.foldlM (QStmt.exec num) p = some M →
      totalSize M.qregs = totalSize p.qregs + (l.map QStmt.qubits).sum ∧ totalSize M.cregs = totalSize p.cregs + (l.map QStmt.bits).sum := by
    intro l
    induction l with
    | nil =>
      intro p M h
      cases h
      exact ⟨rfl, rfl⟩
    | cons q l ih =>
      intro p M h
      rw [List.foldlM_cons] at h
      obtain ⟨p', h1, h2⟩ := Option.bind_eq_some_iff.1 h
      obtain ⟨a, b⟩ := exec_sizes h1
      obtain ⟨c, d⟩ := ih p' M h2
      rw [List.map_cons, List.map_cons, List.sum_cons, List.sum_cons]
      omega
  have := key l _ M h
  simpa [totalSize] using this

end Verif.Proofs
