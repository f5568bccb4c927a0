import Verif.Proofs.JsonSaysGate

/-! # What a JSON value says is read -/

namespace Verif.Proofs
open Verif Verif.Spec Verif.Model Verif.Props

attribute [-simp] BitVec.getLsbD_eq_getElem

theorem index_of {j v : Json} {k : Text} (h : Entry j k v) : j.index k = .ok v := by
  obtain ⟨fs, rfl, h⟩ := h
  unfold Json.index
  dsimp only
  rw [h]

theorem contains_of {j v : Json} {k : Text} (h : Entry j k v) : j.contains k = true := by
  obtain ⟨fs, rfl, h⟩ := h
  unfold Json.contains
  dsimp only
  rw [h]
  rfl

theorem contains_not {j : Json} {k : Text} (h : ∀ v, ¬ Entry j k v) : ¬ j.contains k = true := by
  intro hc
  unfold Json.contains at hc
  split at hc
  · rename_i fs
    obtain ⟨v, hv⟩ := Option.isSome_iff_exists.1 hc
    exact h v ⟨fs, rfl, hv⟩
  · cases hc

theorem asUInt_of {v : Json} {n : Nat} (h : IntSays v n) : v.asUInt = .ok n := by
  cases h with
  | unsigned => rfl
  | signed z _ hn hz =>
    unfold Json.asUInt
    dsimp only
    have : (n : ℤ) % 2 ^ 64 = z % 2 ^ 64 := hz
    rw [← this, Int.emod_eq_of_lt (by omega) (by omega), Int.toNat_natCast]
  | real x _ h1 h2 h3 h4 =>
    unfold Json.asUInt
    dsimp only
    have hb : (n : ℝ) + 1 ≤ 2 ^ 64 := by exact_mod_cast h3
    rw [if_pos ⟨h1, by linarith⟩]
    congr 1
    rcases h4 with h4 | rfl
    · exact (Nat.floor_eq_iff (le_trans (by positivity) h4)).2 ⟨h4, h2⟩
    · exact Nat.floor_eq_zero.2 (by simpa using h2)

theorem asReal_of {v : Json} {x : ℝ} (h : RealSays v x) : v.asReal = .ok x := by
  cases h <;> rfl

theorem mapM_of_forall₂ {α β : Type} {f : α → Res β} {l : List β} {vs : List α} (h : List.Forall₂ (fun b a => f a = .ok b) l vs) : vs.mapM f = .ok l := by
  induction h with
  | nil => rfl
  | cons h1 _ ih => rw [List.mapM_cons, h1, ok_bind, ih]; rfl

theorem uints_says {j : Json} {k : Text} {l : List Nat} (h : ListEntry j k l) : j.uints k = .ok l := by
  obtain ⟨vs, h1, h2⟩ := h
  unfold Json.uints
  rw [at_of h1, ok_bind]
  exact mapM_of_forall₂ (h2.imp fun _ _ => asUInt_of)

theorem number_says {j : Json} {k : Text} {x : ℝ} (h : RealEntry j k x) : j.number k = .ok x := by
  obtain ⟨v, h1, h2⟩ := h
  unfold Json.number
  rw [at_of h1, ok_bind, asReal_of h2]

theorem distribution_says {j : Json} {l : List ℝ} (h : RealsEntry j (t! "distribution") l) : j.distribution = .ok l := by
  obtain ⟨vs, h1, h2⟩ := h
  unfold Json.distribution
  rw [at_of h1, ok_bind]
  exact mapM_of_forall₂ (h2.imp fun _ _ => asReal_of)

theorem typeName_says {j : Json} {s : Text} (h : TextEntry j (t! "type") s) : j.typeName = .ok s := by
  unfold Json.typeName
  rw [at_of h]
  rfl

theorem pauli_says {j : Json} {p : PauliOp} (h : PauliSays j p) : PauliOp.ofJson j = .ok p := by
  obtain ⟨s, c, re, im, h1, h2, ⟨x, h3, h4⟩, ⟨y, h5, h6⟩, h7⟩ := h
  unfold PauliOp.ofJson
  rw [at_of h1, ok_bind]
  unfold Json.asText
  rw [ok_bind, at_of h2, ok_bind]
  unfold complexOfJson
  rw [index_of h3, ok_bind, asReal_of h4, ok_bind, index_of h5, ok_bind, asReal_of h6, ok_bind]
  exact h7

theorem uints_controls {j : Json} {cs vs : List Nat} (h : ControlsSay j cs vs) : j.uints (t! "control") = .ok cs ∧ vs.length = cs.length ∧
    ∃ rest, j.uints (t! "control_value") = .ok (vs ++ rest) ∧ ∀ m, vectorToMask2 cs (vs ++ rest) m = vectorToMask2 cs vs m := by
  obtain ⟨h1, h2, rest, h3⟩ := h
  refine ⟨uints_says h1, h2, rest, uints_says h3, fun m => ?_⟩
  rw [vectorToMask2_take _ _ _ (by simp [h2]), ← h2, List.take_left]

theorem mkOperands_parts {ts cs vs : List Nat} {o : Operands} (hl : vs.length = cs.length) (h : mkOperands ts cs vs = .ok o) :
    ∃ t c v, vectorToMask ts = .ok t ∧ vectorToMask cs = .ok c ∧ vectorToMask2 cs vs 0 = .ok v ∧ gateBase t c v = .ok o := by
  unfold mkOperands at h
  rw [resize_same hl, ok_bind] at h
  obtain ⟨t, h1, h⟩ := bind_ok h
  obtain ⟨c, h2, h⟩ := bind_ok h
  obtain ⟨v, h3, h⟩ := bind_ok h
  exact ⟨t, c, v, h1, h2, h3, h⟩

theorem masks_says {j : Json} {ts cs vs : List Nat} {o : Operands} {t : U64} (h1 : ListEntry j (t! "target") ts) (h2 : ControlsSay j cs vs)
    (ht : vectorToMask ts = .ok t) {c v : U64} (hc : vectorToMask cs = .ok c) (hv : vectorToMask2 cs vs 0 = .ok v) (ho : gateBase t c v = .ok o) :
    ∃ m, j.masks = .ok m ∧ gateBase m.1 m.2.1 m.2.2 = .ok o := by
  obtain ⟨a, b, rest, e1, e2⟩ := uints_controls h2
  refine ⟨(t, c, v), ?_, ho⟩
  unfold Json.masks
  rw [a, ok_bind, e1, ok_bind, uints_says h1, ok_bind, ht, ok_bind, hc, ok_bind, e2, hv]
  rfl

theorem controlMasks_says {j : Json} {cs vs : List Nat} (h2 : ControlsSay j cs vs) {c v : U64} (hc : vectorToMask cs = .ok c)
    (hv : vectorToMask2 cs vs 0 = .ok v) : j.controlMasks = .ok (c, v) := by
  obtain ⟨a, b, rest, e1, e2⟩ := uints_controls h2
  unfold Json.controlMasks
  rw [a, ok_bind, e1, ok_bind, hc, ok_bind, e2, hv]
  rfl

theorem plain_says {j : Json} {k : Gate1} {q : Nat} {cs vs : List Nat} {g : UGate} (h1 : ListEntry j (t! "target") [q]) (h2 : ControlsSay j cs vs)
    (h : (GateDesc.one k q cs vs).build = .ok g) : readPlain k j = .ok g := by
  change (do let o ← mkOperands [q] cs vs; pure (UGate.one k o)) = _ at h
  obtain ⟨o, ho, h⟩ := bind_ok h
  cases h
  obtain ⟨t, c, v, a1, a2, a3, a4⟩ := mkOperands_parts h2.2.1 ho
  obtain ⟨m, hm, hb⟩ := masks_says h1 h2 a1 a2 a3 a4
  unfold readPlain
  rw [hm, ok_bind, hb]
  rfl

theorem angles_says {j : Json} {f : List ℝ → Option Gate1} {keys : List Text} {as : List ℝ} {k : Gate1} {q : Nat} {cs vs : List Nat} {g : UGate}
    (hk : List.Forall₂ (fun a key => RealEntry j key a) as keys) (hf : f as = some k) (h1 : ListEntry j (t! "target") [q]) (h2 : ControlsSay j cs vs)
    (h : (GateDesc.one k q cs vs).build = .ok g) : readAngles f keys j = .ok g := by
  change (do let o ← mkOperands [q] cs vs; pure (UGate.one k o)) = _ at h
  obtain ⟨o, ho, h⟩ := bind_ok h
  cases h
  obtain ⟨t, c, v, a1, a2, a3, a4⟩ := mkOperands_parts h2.2.1 ho
  obtain ⟨m, hm, hb⟩ := masks_says h1 h2 a1 a2 a3 a4
  unfold readAngles
  rw [hm, ok_bind, mapM_of_forall₂ (hk.imp fun _ _ => number_says), ok_bind, hb, ok_bind, hf]
  rfl

theorem mkPauli_parts {p : PauliOp} {cs vs : List Nat} {g : PauliGate} (hl : vs.length = cs.length) (h : mkPauli p cs vs = .ok g) :
    ∃ c v, vectorToMask cs = .ok c ∧ vectorToMask2 cs vs 0 = .ok v ∧ pauliCtor c v p = .ok g := by
  unfold mkPauli at h
  rw [resize_same hl, ok_bind] at h
  obtain ⟨c, h2, h⟩ := bind_ok h
  obtain ⟨v, h3, h⟩ := bind_ok h
  exact ⟨c, v, h2, h3, h⟩

/-- the reader of the type that `DescSays` names -/
theorem desc_says {j : Json} {d : GateDesc} {g : UGate} (h : DescSays j d) (hb : d.build = .ok g) :
    ∃ type, TextEntry j (t! "type") type ∧ type ≠ (t! "Measurement") ∧ type ≠ (t! "Probabilistic") ∧ ¬ (t! "Param").isPrefixOf type = true ∧
      readUGate type j = some (.ok g) := by
  cases h with
  | ident h =>
    cases hb
    exact ⟨_, h, by decide, by decide, by decide, rfl⟩
  | globalPhase phase cs vs h h1 h2 =>
    refine ⟨_, h, by decide, by decide, by decide, ?_⟩
    change (do let o ← mkOperands [] cs vs; pure (UGate.globalPhase phase o)) = _ at hb
    obtain ⟨o, ho, hb⟩ := bind_ok hb
    cases hb
    obtain ⟨t, c, v, a1, a2, a3, a4⟩ := mkOperands_parts h2.2.1 ho
    cases a1
    show some (readGlobalPhase j) = _
    unfold readGlobalPhase
    rw [controlMasks_says h2 a2 a3, ok_bind, number_says h1, ok_bind, a4]
    rfl
  | one k q cs vs hk h1 h2 =>
    cases hk with
    | X h => exact ⟨_, h, by decide, by decide, by decide, congrArg some (plain_says h1 h2 hb)⟩
    | Y h => exact ⟨_, h, by decide, by decide, by decide, congrArg some (plain_says h1 h2 hb)⟩
    | Z h => exact ⟨_, h, by decide, by decide, by decide, congrArg some (plain_says h1 h2 hb)⟩
    | H h => exact ⟨_, h, by decide, by decide, by decide, congrArg some (plain_says h1 h2 hb)⟩
    | S h => exact ⟨_, h, by decide, by decide, by decide, congrArg some (plain_says h1 h2 hb)⟩
    | Sdag h => exact ⟨_, h, by decide, by decide, by decide, congrArg some (plain_says h1 h2 hb)⟩
    | T h => exact ⟨_, h, by decide, by decide, by decide, congrArg some (plain_says h1 h2 hb)⟩
    | Tdag h => exact ⟨_, h, by decide, by decide, by decide, congrArg some (plain_says h1 h2 hb)⟩
    | SqrtX h => exact ⟨_, h, by decide, by decide, by decide, congrArg some (plain_says h1 h2 hb)⟩
    | SqrtXdag h => exact ⟨_, h, by decide, by decide, by decide, congrArg some (plain_says h1 h2 hb)⟩
    | SqrtY h => exact ⟨_, h, by decide, by decide, by decide, congrArg some (plain_says h1 h2 hb)⟩
    | SqrtYdag h => exact ⟨_, h, by decide, by decide, by decide, congrArg some (plain_says h1 h2 hb)⟩
    | RX a h ha => exact ⟨_, h, by decide, by decide, by decide, congrArg some (angles_says (.cons ha .nil) rfl h1 h2 hb)⟩
    | RY a h ha => exact ⟨_, h, by decide, by decide, by decide, congrArg some (angles_says (.cons ha .nil) rfl h1 h2 hb)⟩
    | RZ a h ha => exact ⟨_, h, by decide, by decide, by decide, congrArg some (angles_says (.cons ha .nil) rfl h1 h2 hb)⟩
    | U1 a h ha => exact ⟨_, h, by decide, by decide, by decide, congrArg some (angles_says (.cons ha .nil) rfl h1 h2 hb)⟩
    | U2 a b h ha hb' => exact ⟨_, h, by decide, by decide, by decide, congrArg some (angles_says (.cons ha (.cons hb' .nil)) rfl h1 h2 hb)⟩
    | U3 a b c h ha hb' hc => exact ⟨_, h, by decide, by decide, by decide, congrArg some (angles_says (.cons ha (.cons hb' (.cons hc .nil))) rfl h1 h2 hb)⟩
  | swap a b cs vs h h1 h2 =>
    refine ⟨_, h, by decide, by decide, by decide, ?_⟩
    change (do let o ← mkOperands [a, b] cs vs; pure (UGate.swap o)) = _ at hb
    obtain ⟨o, ho, hb⟩ := bind_ok hb
    cases hb
    obtain ⟨t, c, v, a1, a2, a3, a4⟩ := mkOperands_parts h2.2.1 ho
    obtain ⟨m, hm, hb⟩ := masks_says h1 h2 a1 a2 a3 a4
    show some (readSwap j) = _
    unfold readSwap
    rw [hm, ok_bind, hb]
    rfl
  | ecr a b cs vs h h1 hpc hpt h2 =>
    refine ⟨_, h, by decide, by decide, by decide, ?_⟩
    change (do let g ← mkEcr a b cs vs; pure (UGate.ecr g)) = _ at hb
    obtain ⟨e, he, hb⟩ := bind_ok hb
    cases hb
    unfold mkEcr at he
    obtain ⟨o, ho, he⟩ := bind_ok he
    obtain ⟨pc, e1, he⟩ := bind_ok he
    obtain ⟨pt, e2, he⟩ := bind_ok he
    cases he
    obtain ⟨t, c, v, a1, a2, a3, a4⟩ := mkOperands_parts h2.2.1 ho
    obtain ⟨ts, hts, htl⟩ : ∃ ts, vectorToMask ts = .ok t ∧ ListEntry j (t! "target") ts := by
      rcases h1 with h1 | h1
      · refine ⟨[a, b], ?_, h1⟩
        obtain ⟨hnd, hlt⟩ := (vectorToMask_ok_iff [b, a]).1 ⟨_, a1⟩
        obtain ⟨m', hm'⟩ := (vectorToMask_ok_iff [a, b]).2 ⟨by
          simp at hnd ⊢; exact fun e => hnd e.symm, fun x hx => hlt x (by simp at hx ⊢; exact hx.symm)⟩
        rw [hm', vectorToMask_congr a1 hm' fun i => by simp [or_comm]]
      · exact ⟨[b, a], a1, h1⟩
    obtain ⟨m, hm, hb⟩ := masks_says htl h2 hts a2 a3 a4
    show some (readEcr j) = _
    unfold readEcr
    rw [hm, ok_bind, uints_says hpc, ok_bind, e1, ok_bind, uints_says hpt, ok_bind, e2, ok_bind, hb]
    rfl
  | perm dst h h1 =>
    refine ⟨_, h, by decide, by decide, by decide, ?_⟩
    change (do let g ← mkPerm dst; pure (UGate.perm g)) = _ at hb
    obtain ⟨e, he, hb⟩ := bind_ok hb
    cases hb
    show some (readPermutation j) = _
    unfold readPermutation
    rw [uints_says h1, ok_bind, (mkPerm_ok he).2]
    rfl
  | pauli w p cs vs h hw hp h2 =>
    refine ⟨_, h, by decide, by decide, by decide, ?_⟩
    change (do let g ← mkPauli p cs vs; pure (UGate.pauli g)) = _ at hb
    obtain ⟨e, he, hb⟩ := bind_ok hb
    cases hb
    obtain ⟨c, v, a1, a2, a3⟩ := mkPauli_parts h2.2.1 he
    show some (readPauli j) = _
    unfold readPauli
    rw [controlMasks_says h2 a1 a2, ok_bind, at_of hw, ok_bind, pauli_says hp, ok_bind, a3]
    rfl
  | pauliRot w p angle cs vs h hw hp ha h2 =>
    refine ⟨_, h, by decide, by decide, by decide, ?_⟩
    change (do let g ← mkPauli p cs vs; pure (UGate.pauliRot g angle)) = _ at hb
    obtain ⟨e, he, hb⟩ := bind_ok hb
    cases hb
    obtain ⟨c, v, a1, a2, a3⟩ := mkPauli_parts h2.2.1 he
    show some (readPauliRotation j) = _
    unfold readPauliRotation
    rw [controlMasks_says h2 a1 a2, ok_bind, at_of hw, ok_bind, pauli_says hp, ok_bind, number_says ha, ok_bind, a3]
    rfl

theorem forall₂_of_getElem {α β : Type} {R : α → β → Prop} : ∀ {l : List α} {l' : List β}, l.length = l'.length →
    (∀ (i : Nat) (b : β) (a : α), l'[i]? = some b → l[i]? = some a → R a b) → List.Forall₂ R l l' := by
  intro l
  induction l with
  | nil =>
    intro l' h _
    cases l' with
    | nil => exact .nil
    | cons => cases h
  | cons a l ih =>
    intro l' h hr
    cases l' with
    | nil => cases h
    | cons b l' =>
      exact .cons (hr 0 b a rfl rfl) (ih (by simpa using h) fun i b a hb ha => hr (i + 1) b a hb ha)

theorem gate_read_of {j : Json} {g : Gate} (h : GateSays j g) :
    Gate.ofJson j = .ok g ∧ ∃ type, TextEntry j (t! "type") type ∧ ¬ (t! "Param").isPrefixOf type = true := by
  induction h with
  | det h hb =>
    obtain ⟨type, h1, h2, h3, h4, h5⟩ := desc_says h hb
    refine ⟨?_, type, h1, h4⟩
    rw [ofJson_det (typeName_says h1) h2 h3 h5]
    rfl
  | @measurement j q cbit reset g h h1 h2 h3 h4 =>
    refine ⟨?_, _, h, by decide⟩
    rw [Gate.ofJson.eq_1, typeName_says h]
    dsimp only
    rw [if_pos rfl]
    obtain ⟨v, hv, hi⟩ := h2
    unfold mkMeas at h4
    obtain ⟨t, a1, h4⟩ := bind_ok h4
    obtain ⟨o, a2, h4⟩ := bind_ok h4
    cases h4
    unfold readMeasurement
    dsimp only
    rcases h3 with h3 | ⟨rfl, h3⟩
    · rw [if_pos (contains_of h3), at_of h3, ok_bind]
      unfold Json.asBool
      rw [ok_bind, uints_says h1, ok_bind, a1, ok_bind, at_of hv, ok_bind, asUInt_of hi, ok_bind, a2]
      rfl
    · rw [if_neg (contains_not h3)]
      show (do
        let g ← (do
          let targets ← j.uints (t! "target")
          let t ← vectorToMask targets
          let a ← j.at (t! "classical_bit")
          let cbit ← a.asUInt
          let o ← gateBase t 0 0
          pure (⟨o, cbit, false⟩ : MeasGate))
        pure (Gate.meas g)) = _
      rw [uints_says h1, ok_bind, a1, ok_bind, at_of hv, ok_bind, asUInt_of hi, ok_bind, a2]
      rfl
  | @probabilistic j ds vs gs g h h1 h2 h3 _ h5 ih =>
    refine ⟨?_, _, h, by decide⟩
    have ha : j.gateArray = .ok vs := by
      unfold Json.gateArray
      rw [at_of h2]
      rfl
    rw [Gate.ofJson.eq_1, typeName_says h]
    dsimp only
    rw [if_neg (by decide), if_pos rfl, distribution_says h1, ok_bind]
    split
    · rename_i e he
      rw [ha] at he
      cases he
    · rename_i l hl
      cases ha.symm.trans hl
      rw [mapM_attach, mapM_of_forall₂ (forall₂_of_getElem h3 fun i v x hv hx => (ih i v x hv hx).1)]
      exact h5

theorem axis_says {j : Json} {a : RotAxis} {q : Nat} {k : ℝ} {cs vs : List Nat} {r : PRot} (h1 : ListEntry j (t! "target") [q])
    (hk : RealEntry j (t! "param_coef") k) (h2 : ControlsSay j cs vs) (h : mkAxis a q k cs vs = .ok r) : readAxis a j = .ok (.rot r) := by
  unfold mkAxis at h
  obtain ⟨o, ho, h⟩ := bind_ok h
  cases h
  obtain ⟨t, c, v, a1, a2, a3, a4⟩ := mkOperands_parts h2.2.1 ho
  obtain ⟨m, hm, hb⟩ := masks_says h1 h2 a1 a2 a3 a4
  unfold readAxis
  rw [hm, ok_bind, number_says hk, ok_bind, hb]
  rfl

theorem param_read_of {j : Json} {g : PGate} (h : ParamSays j g) :
    PGate.ofJson j = .ok g ∧ ∃ type, TextEntry j (t! "type") type ∧ (t! "Param").isPrefixOf type = true := by
  induction h with
  | @axis j a q k cs vs r ha h1 hk h2 h =>
    have hr := axis_says h1 hk h2 h
    cases ha with
    | X e =>
      refine ⟨?_, _, e, by decide⟩
      rw [PGate.ofJson.eq_1, typeName_says e]
      exact hr
    | Y e =>
      refine ⟨?_, _, e, by decide⟩
      rw [PGate.ofJson.eq_1, typeName_says e]
      exact hr
    | Z e =>
      refine ⟨?_, _, e, by decide⟩
      rw [PGate.ofJson.eq_1, typeName_says e]
      exact hr
  | @pauli j w p k cs vs r e hw hp hk h2 h =>
    refine ⟨?_, _, e, by decide⟩
    rw [PGate.ofJson.eq_1, typeName_says e]
    unfold mkParamPauli at h
    obtain ⟨q, hq, h⟩ := bind_ok h
    cases h
    obtain ⟨c, v, a1, a2, a3⟩ := mkPauli_parts h2.2.1 hq
    show readParamPauli j = _
    unfold readParamPauli
    rw [controlMasks_says h2 a1 a2, ok_bind, at_of hw, ok_bind, pauli_says hp, ok_bind, number_says hk, ok_bind, a3]
    rfl
  | @probabilistic j ds vs gs g e h1 h2 h3 hd _ h5 ih =>
    refine ⟨?_, _, e, by decide⟩
    rw [PGate.ofJson.eq_1, typeName_says e]
    dsimp only
    rw [if_neg (by decide), if_neg (by decide), if_neg (by decide), if_neg (by decide), if_pos rfl, distribution_says h1, ok_bind]
    split
    · rename_i e he
      rw [at_of h2] at he
      cases he
    · rename_i l hl
      cases (at_of h2).symm.trans hl
      rw [mapM_attach (f := fun x : Json => do
          let name ← x.typeName
          if (t! "Param").isPrefixOf name then do
            let g ← PGate.ofJson x
            pure (Sum.inr g)
          else do
            let g ← Gate.ofJson x
            pure (Sum.inl g))]
      have : List.Forall₂ (fun (b : Gate ⊕ PGate) (x : Json) => (do
          let name ← x.typeName
          if (t! "Param").isPrefixOf name then do
            let g ← PGate.ofJson x
            pure (Sum.inr g)
          else do
            let g ← Gate.ofJson x
            pure (Sum.inl g) : Res (Gate ⊕ PGate)) = .ok b) gs vs := by
        refine forall₂_of_getElem h3 fun i v x hv hx => ?_
        cases x with
        | inl x =>
          obtain ⟨a, type, b, c⟩ := gate_read_of (hd i v x hv hx)
          rw [typeName_says b, ok_bind, if_neg c, a]
          rfl
        | inr x =>
          obtain ⟨a, type, b, c⟩ := ih i v x hv hx
          rw [typeName_says b, ok_bind, if_pos c, a]
          rfl
      rw [show (Json.arr vs).items = vs from rfl, mapM_of_forall₂ this]
      exact h5

theorem circuit_read_of {vs : List Json} {l : List Item} (h : List.Forall₂ (fun g v => ItemSays v g) l vs) : ∀ C : Circuit,
    vs.foldlM addFromJson C = .ok ⟨C.gates ++ l, C.conds ++ List.replicate l.length none⟩ := by
  induction h with
  | nil => intro C; simp; rfl
  | cons h1 _ ih =>
    intro C
    rw [List.foldlM_cons]
    cases h1 with
    | gate hk hg hs =>
      unfold addFromJson
      rw [if_neg (contains_not hk), at_of hg, ok_bind, (gate_read_of hs).1, ok_bind]
      refine (ih _).trans ?_
      simp [Circuit.addGate, List.replicate_succ]
    | param hk hg hs =>
      unfold addFromJson
      rw [if_pos (contains_of hk), at_of hg, ok_bind, (param_read_of hs).1, ok_bind, at_of hk, ok_bind]
      unfold Json.asText
      rw [ok_bind, String.ofList_toList]
      refine (ih _).trans ?_
      simp [Circuit.addParamGate, List.replicate_succ]

end Verif.Proofs
