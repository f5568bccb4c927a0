import Verif.Proofs.JsonSays
import Verif.Props.JsonRead

/-! # What has been read from JSON: gates and circuits -/

namespace Verif.Proofs
open Verif Verif.Spec Verif.Model Verif.Props

attribute [-simp] BitVec.getLsbD_eq_getElem

theorem forall₂_one {j : Json} {as : List ℝ} {a : Text} (h : List.Forall₂ (fun x key => RealEntry j key x) as [a]) : ∃ x, as = [x] ∧ RealEntry j a x := by
  cases h with
  | cons h1 h2 => cases h2; exact ⟨_, rfl, h1⟩

theorem forall₂_getElem {α β : Type} {R : α → β → Prop} {l : List α} {l' : List β} (h : List.Forall₂ R l l') :
    ∀ {i : Nat} {a : α} {b : β}, l[i]? = some a → l'[i]? = some b → R a b := by
  induction h with
  | nil => intro i a b h; simp at h
  | cons h1 _ ih =>
    intro i a b ha hb
    cases i with
    | zero => cases ha; cases hb; exact h1
    | succ i => exact ih ha hb

theorem ugate_inv {j : Json} {type : Text} (ha : Arity j) (hn : TextEntry j (t! "type") type) {r : Res UGate} (hr : readUGate type j = some r)
    {g : UGate} (hg : r = .ok g) : ∃ d, DescSays j d ∧ d.build = .ok g := by
  have hone : type ∈ targetTypes → ∀ ts, ListEntry j (t! "target") ts → ts.length = 1 := fun hm ts hts => ha.one type ts hn hm hts
  unfold readUGate at hr
  rcases branch hr with ⟨e, rfl⟩ | hr
  · cases hg
    exact ⟨.ident, .ident (e ▸ hn), rfl⟩
  rcases branch hr with ⟨e, rfl⟩ | hr
  · unfold readGlobalPhase at hg
    obtain ⟨m, hm, hg⟩ := bind_ok hg
    obtain ⟨phase, hp, hg⟩ := bind_ok hg
    obtain ⟨o, ho, hg⟩ := bind_ok hg
    cases hg
    obtain ⟨cs, vs, a, b⟩ := controlMasks_inv hm
    refine ⟨.globalPhase phase cs vs, .globalPhase _ _ _ (e ▸ hn) (field_inv hp) a, ?_⟩
    show (do let o ← mkOperands [] cs vs; pure (UGate.globalPhase phase o)) = _
    rw [mkOperands_read (ts := []) rfl b ho]
    rfl
  rcases branch hr with ⟨e, rfl⟩ | hr
  · exact plain_inv (.X (e ▸ hn)) (hone (by rw [e]; decide)) hg
  rcases branch hr with ⟨e, rfl⟩ | hr
  · exact plain_inv (.Y (e ▸ hn)) (hone (by rw [e]; decide)) hg
  rcases branch hr with ⟨e, rfl⟩ | hr
  · exact plain_inv (.Z (e ▸ hn)) (hone (by rw [e]; decide)) hg
  rcases branch hr with ⟨e, rfl⟩ | hr
  · exact plain_inv (.H (e ▸ hn)) (hone (by rw [e]; decide)) hg
  rcases branch hr with ⟨e, rfl⟩ | hr
  · exact plain_inv (.S (e ▸ hn)) (hone (by rw [e]; decide)) hg
  rcases branch hr with ⟨e, rfl⟩ | hr
  · exact plain_inv (.Sdag (e ▸ hn)) (hone (by rw [e]; decide)) hg
  rcases branch hr with ⟨e, rfl⟩ | hr
  · exact plain_inv (.T (e ▸ hn)) (hone (by rw [e]; decide)) hg
  rcases branch hr with ⟨e, rfl⟩ | hr
  · exact plain_inv (.Tdag (e ▸ hn)) (hone (by rw [e]; decide)) hg
  rcases branch hr with ⟨e, rfl⟩ | hr
  · exact plain_inv (.SqrtX (e ▸ hn)) (hone (by rw [e]; decide)) hg
  rcases branch hr with ⟨e, rfl⟩ | hr
  · exact plain_inv (.SqrtXdag (e ▸ hn)) (hone (by rw [e]; decide)) hg
  rcases branch hr with ⟨e, rfl⟩ | hr
  · exact plain_inv (.SqrtY (e ▸ hn)) (hone (by rw [e]; decide)) hg
  rcases branch hr with ⟨e, rfl⟩ | hr
  · exact plain_inv (.SqrtYdag (e ▸ hn)) (hone (by rw [e]; decide)) hg
  rcases branch hr with ⟨e, rfl⟩ | hr
  · refine angles_inv (fun as k h hf => ?_) (hone (by rw [e]; decide)) hg
    obtain ⟨x, rfl, hx⟩ := forall₂_one h
    cases hf
    exact .RX _ (e ▸ hn) hx
  rcases branch hr with ⟨e, rfl⟩ | hr
  · refine angles_inv (fun as k h hf => ?_) (hone (by rw [e]; decide)) hg
    obtain ⟨x, rfl, hx⟩ := forall₂_one h
    cases hf
    exact .RY _ (e ▸ hn) hx
  rcases branch hr with ⟨e, rfl⟩ | hr
  · refine angles_inv (fun as k h hf => ?_) (hone (by rw [e]; decide)) hg
    obtain ⟨x, rfl, hx⟩ := forall₂_one h
    cases hf
    exact .RZ _ (e ▸ hn) hx
  rcases branch hr with ⟨e, rfl⟩ | hr
  · refine angles_inv (fun as k h hf => ?_) (hone (by rw [e]; decide)) hg
    obtain ⟨x, rfl, hx⟩ := forall₂_one h
    cases hf
    exact .U1 _ (e ▸ hn) hx
  rcases branch hr with ⟨e, rfl⟩ | hr
  · refine angles_inv (fun as k h hf => ?_) (hone (by rw [e]; decide)) hg
    cases h with
    | cons h1 h =>
    obtain ⟨y, rfl, h2⟩ := forall₂_one h
    cases hf
    exact .U2 _ _ (e ▸ hn) h1 h2
  rcases branch hr with ⟨e, rfl⟩ | hr
  · refine angles_inv (fun as k h hf => ?_) (hone (by rw [e]; decide)) hg
    cases h with
    | cons h1 h =>
    cases h with
    | cons h2 h =>
    obtain ⟨y, rfl, h3⟩ := forall₂_one h
    cases hf
    exact .U3 _ _ _ (e ▸ hn) h1 h2 h3
  rcases branch hr with ⟨e, rfl⟩ | hr
  · unfold readSwap at hg
    obtain ⟨m, hm, hg⟩ := bind_ok hg
    obtain ⟨o, ho, hg⟩ := bind_ok hg
    cases hg
    obtain ⟨ts, cs, vs, h1, h2, h3, h4⟩ := masks_inv hm
    obtain ⟨a, b, rfl⟩ := List.length_eq_two.1 (ha.two ts (e ▸ hn) h1)
    refine ⟨.swap a b cs vs, .swap _ _ _ _ (e ▸ hn) h1 h3, ?_⟩
    show (do let o ← mkOperands [a, b] cs vs; pure (UGate.swap o)) = _
    rw [mkOperands_read h2 h4 ho]
    rfl
  rcases branch hr with ⟨e, rfl⟩ | hr
  · unfold readEcr at hg
    obtain ⟨m, hm, hg⟩ := bind_ok hg
    obtain ⟨pcs, h5, hg⟩ := bind_ok hg
    obtain ⟨pc, h6, hg⟩ := bind_ok hg
    obtain ⟨pts, h7, hg⟩ := bind_ok hg
    obtain ⟨pt, h8, hg⟩ := bind_ok hg
    obtain ⟨o, ho, hg⟩ := bind_ok hg
    cases hg
    obtain ⟨ts, cs, vs, h1, h2, h3, h4⟩ := masks_inv hm
    obtain ⟨a, b, rfl, rfl, hab⟩ := ha.ecr ts pcs pts (e ▸ hn) h1 (uints_inv h5) (uints_inv h7)
    refine ⟨.ecr a b cs vs, .ecr _ _ _ _ (e ▸ hn) ?_ (uints_inv h5) (uints_inv h7) h3, ?_⟩
    · rcases hab with rfl | rfl
      · exact .inl h1
      · exact .inr h1
    have ht' : vectorToMask [b, a] = .ok m.1 := by
      obtain ⟨hnd, hlt⟩ := (vectorToMask_ok_iff ts).1 ⟨_, h2⟩
      obtain ⟨m', hm'⟩ := (vectorToMask_ok_iff [b, a]).2 ⟨by
        rcases hab with rfl | rfl
        · simp at hnd ⊢; exact fun e => hnd e.symm
        · exact hnd, by
        intro x hx
        refine hlt x ?_
        rcases hab with rfl | rfl
        · simp at hx ⊢; exact hx.symm
        · exact hx⟩
      rw [hm', vectorToMask_congr h2 hm' fun i => by rcases hab with rfl | rfl <;> simp [or_comm]]
    show (do let g ← mkEcr a b cs vs; pure (UGate.ecr g)) = _
    unfold mkEcr
    rw [mkOperands_read ht' h4 ho, ok_bind, h6, ok_bind, h8]
    rfl
  rcases branch hr with ⟨e, rfl⟩ | hr
  · unfold readPermutation at hg
    obtain ⟨dst, hd, hg⟩ := bind_ok hg
    obtain ⟨p, hp, hg⟩ := bind_ok hg
    cases hg
    have hl : dst.length < 64 := by
      have hp' := hp
      unfold permCtor at hp'
      obtain ⟨m, -, hp'⟩ := bind_ok hp'
      obtain ⟨o, -, hp'⟩ := bind_ok hp'
      obtain ⟨b, hb, -⟩ := bind_ok hp'
      exact shl1_lt hb
    refine ⟨.perm dst, .perm _ (e ▸ hn) (uints_inv hd), ?_⟩
    show (do let g ← mkPerm dst; pure (UGate.perm g)) = _
    rw [mkPerm_of_ctor hl hp]
    rfl
  rcases branch hr with ⟨e, rfl⟩ | hr
  · unfold readPauli at hg
    obtain ⟨m, hm, hg⟩ := bind_ok hg
    obtain ⟨v, hv, hg⟩ := bind_ok hg
    obtain ⟨p, hp, hg⟩ := bind_ok hg
    obtain ⟨q, hq, hg⟩ := bind_ok hg
    cases hg
    obtain ⟨cs, vs, a, b⟩ := controlMasks_inv hm
    refine ⟨.pauli p cs vs, .pauli v _ _ _ (e ▸ hn) (at_inv hv) (pauli_inv hp) a, ?_⟩
    show (do let g ← mkPauli p cs vs; pure (UGate.pauli g)) = _
    rw [mkPauli_read b hq]
    rfl
  rcases branch hr with ⟨e, rfl⟩ | hr
  · unfold readPauliRotation at hg
    obtain ⟨m, hm, hg⟩ := bind_ok hg
    obtain ⟨v, hv, hg⟩ := bind_ok hg
    obtain ⟨p, hp, hg⟩ := bind_ok hg
    obtain ⟨angle, hx, hg⟩ := bind_ok hg
    obtain ⟨q, hq, hg⟩ := bind_ok hg
    cases hg
    obtain ⟨cs, vs, a, b⟩ := controlMasks_inv hm
    refine ⟨.pauliRot p angle cs vs, .pauliRot v _ _ _ _ (e ▸ hn) (at_inv hv) (pauli_inv hp) (field_inv hx) a, ?_⟩
    show (do let g ← mkPauli p cs vs; pure (UGate.pauliRot g angle)) = _
    rw [mkPauli_read b hq]
    rfl
  cases hr

theorem measurement_inv {j : Json} (ha : Arity j) (hn : TextEntry j (t! "type") (t! "Measurement")) {g : MeasGate} (h : readMeasurement j = .ok g) :
    GateSays j (.meas g) := by
  unfold readMeasurement at h
  have rest : ∀ reset : Bool, (Entry j (t! "reset") (.bool reset) ∨ (reset = false ∧ ∀ v, ¬ Entry j (t! "reset") v)) → (do
      let targets ← j.uints (t! "target")
      let t ← vectorToMask targets
      let a ← j.at (t! "classical_bit")
      let cbit ← a.asUInt
      let o ← gateBase t 0 0
      pure (⟨o, cbit, reset⟩ : MeasGate)) = .ok g → GateSays j (.meas g) := by
    intro reset hre h
    obtain ⟨ts, h1, h⟩ := bind_ok h
    obtain ⟨t, h2, h⟩ := bind_ok h
    obtain ⟨a, h3, h⟩ := bind_ok h
    obtain ⟨cbit, h4, h⟩ := bind_ok h
    obtain ⟨o, h5, h⟩ := bind_ok h
    cases h
    obtain ⟨q, rfl⟩ := List.length_eq_one_iff.1 (ha.one _ ts hn (by decide) (uints_inv h1))
    refine .measurement hn (uints_inv h1) ⟨a, at_inv h3, asUInt_inv h4⟩ hre ?_
    unfold mkMeas
    rw [h2, ok_bind, h5]
    rfl
  dsimp only at h
  split at h
  · obtain ⟨a, h2, h⟩ := bind_ok h
    obtain ⟨reset, h3, h⟩ := bind_ok h
    cases asBool_inv h3
    exact rest reset (.inl (at_inv h2)) h
  · rename_i hc
    exact rest false (.inr ⟨rfl, contains_false hc⟩) h

theorem partOf_trans {j x y : Json} (h1 : PartOf j x) (h2 : PartOf x y) : PartOf j y := by
  induction h2 with
  | self => exact h1
  | entry _ ha hy ih => exact .entry ih ha hy

theorem gate_says (j : Json) (h : ∀ x, PartOf j x → Arity x) {g : Gate} (hg : Gate.ofJson j = .ok g) : GateSays j g := by
  induction hs : sizeOf j using Nat.strongRecOn generalizing j g with
  | ind n ih =>
    rw [Gate.ofJson.eq_1] at hg
    cases hn : j.typeName with
    | error e => rw [hn] at hg; cases hg
    | ok type =>
    rw [hn] at hg
    dsimp only at hg
    split at hg
    · rename_i e
      obtain ⟨m, hm, hg⟩ := bind_ok hg
      cases hg
      exact measurement_inv (h j .self) (e ▸ typeName_inv hn) hm
    split at hg
    · rename_i e
      obtain ⟨dist, hd, hg⟩ := bind_ok hg
      split at hg
      · cases hg
      · rename_i l hl
        rw [mapM_attach] at hg
        obtain ⟨gs, hgs, hg⟩ := bind_ok hg
        have hf := mapM_forall₂ hgs
        have hin := gateArray_inv hl
        refine .probabilistic (e ▸ typeName_inv hn) (distribution_inv hd) hin hf.length_eq (fun i v x hv hx => ?_) hg
        have hmem : v ∈ l := List.mem_of_getElem? hv
        refine ih _ (hs ▸ gateArray_lt hl hmem) v (fun y hy => h y (partOf_trans (.entry .self hin hmem) hy)) ?_ rfl
        exact forall₂_getElem hf hx hv
    split at hg
    · rename_i r hr
      obtain ⟨u, hu, hg⟩ := bind_ok hg
      cases hg
      obtain ⟨d, h1, h2⟩ := ugate_inv (h j .self) (typeName_inv hn) hr hu
      exact .det h1 h2
    · cases hg

theorem axis_inv {j : Json} {a : RotAxis} (ha : AxisSays j a) (h1 : ∀ ts, ListEntry j (t! "target") ts → ts.length = 1) {g : PGate}
    (h : readAxis a j = .ok g) : ParamSays j g := by
  unfold readAxis at h
  obtain ⟨m, hm, h⟩ := bind_ok h
  obtain ⟨k, hk, h⟩ := bind_ok h
  obtain ⟨o, ho, h⟩ := bind_ok h
  cases h
  obtain ⟨ts, cs, vs, h2, h3, h4, h5⟩ := masks_inv hm
  obtain ⟨q, rfl⟩ := List.length_eq_one_iff.1 (h1 ts h2)
  refine .axis ha h2 (field_inv hk) h4 ?_
  unfold mkAxis
  rw [mkOperands_read h3 h5 ho]
  rfl

theorem param_says (j : Json) (h : ∀ x, PartOf j x → Arity x) {g : PGate} (hg : PGate.ofJson j = .ok g) : ParamSays j g := by
  induction hs : sizeOf j using Nat.strongRecOn generalizing j g with
  | ind n ih =>
    rw [PGate.ofJson.eq_1] at hg
    cases hn : j.typeName with
    | error e => rw [hn] at hg; cases hg
    | ok type =>
    rw [hn] at hg
    dsimp only at hg
    have ht := typeName_inv hn
    have ha := h j .self
    have hone : type ∈ targetTypes → ∀ ts, ListEntry j (t! "target") ts → ts.length = 1 := fun hm ts hts => ha.one type ts ht hm hts
    split at hg
    · rename_i e
      exact axis_inv (.X (e ▸ ht)) (hone (by rw [e]; decide)) hg
    split at hg
    · rename_i e
      exact axis_inv (.Y (e ▸ ht)) (hone (by rw [e]; decide)) hg
    split at hg
    · rename_i e
      exact axis_inv (.Z (e ▸ ht)) (hone (by rw [e]; decide)) hg
    split at hg
    · rename_i e
      unfold readParamPauli at hg
      obtain ⟨m, hm, hg⟩ := bind_ok hg
      obtain ⟨v, hv, hg⟩ := bind_ok hg
      obtain ⟨p, hp, hg⟩ := bind_ok hg
      obtain ⟨k, hk, hg⟩ := bind_ok hg
      obtain ⟨q, hq, hg⟩ := bind_ok hg
      cases hg
      obtain ⟨cs, vs, a, b⟩ := controlMasks_inv hm
      refine .pauli (e ▸ ht) (at_inv hv) (pauli_inv hp) (field_inv hk) a ?_
      unfold mkParamPauli
      rw [mkPauli_read b hq]
      rfl
    split at hg
    · rename_i e
      obtain ⟨dist, hd, hg⟩ := bind_ok hg
      split at hg
      · cases hg
      · rename_i a hl
        obtain ⟨vs, rfl⟩ := ha.array a (at_inv hl)
        have hin := at_inv hl
        obtain ⟨gs, hgs, hg⟩ := bind_ok hg
        rw [mapM_attach (f := fun x : Json => do
          let name ← x.typeName
          if (t! "Param").isPrefixOf name then do
            let g ← PGate.ofJson x
            pure (Sum.inr g)
          else do
            let g ← Gate.ofJson x
            pure (Sum.inl g))] at hgs
        have hf := mapM_forall₂ hgs
        refine .probabilistic (e ▸ ht) (distribution_inv hd) hin hf.length_eq (fun i v x hv hx => ?_) (fun i v x hv hx => ?_) hg
        · have hmem : v ∈ vs := List.mem_of_getElem? hv
          have hr := forall₂_getElem hf hx hv
          obtain ⟨name, -, hr⟩ := bind_ok hr
          split at hr
          · obtain ⟨y, -, hr⟩ := bind_ok hr
            cases hr
          · obtain ⟨y, hy, hr⟩ := bind_ok hr
            cases hr
            exact gate_says v (fun y hy => h y (partOf_trans (.entry .self hin hmem) hy)) hy
        · have hmem : v ∈ vs := List.mem_of_getElem? hv
          have hr := forall₂_getElem hf hx hv
          obtain ⟨name, -, hr⟩ := bind_ok hr
          split at hr
          · obtain ⟨y, hy, hr⟩ := bind_ok hr
            cases hr
            exact ih _ (hs ▸ lt_of_le_of_lt (items_lt (j := .arr vs) hmem) (at_lt hl)) v
              (fun y hy => h y (partOf_trans (.entry .self hin hmem) hy)) hy rfl
          · obtain ⟨y, -, hr⟩ := bind_ok hr
            cases hr
    · cases hg

theorem circuit_says (vs : List Json) (h : ∀ v ∈ vs, ∀ g, Entry v (t! "gate") g → ∀ x, PartOf g x → Arity x) : ∀ {C C' : Circuit},
    vs.foldlM addFromJson C = .ok C' → ∃ l, List.Forall₂ (fun g v => ItemSays v g) l vs ∧ C'.gates = C.gates ++ l ∧
      C'.conds = C.conds ++ List.replicate l.length none := by
  induction vs with
  | nil =>
    intro C C' hc
    cases hc
    exact ⟨[], .nil, by simp, by simp⟩
  | cons v vs ih =>
    intro C C' hc
    rw [List.foldlM_cons] at hc
    obtain ⟨C1, h1, h2⟩ := bind_ok hc
    obtain ⟨l, hf, e1, e2⟩ := ih (fun v hv => h v (List.mem_cons_of_mem _ hv)) h2
    unfold addFromJson at h1
    split at h1
    · obtain ⟨a, ha, h1⟩ := bind_ok h1
      obtain ⟨g, hg, h1⟩ := bind_ok h1
      obtain ⟨b, hb, h1⟩ := bind_ok h1
      obtain ⟨k, hk, h1⟩ := bind_ok h1
      cases h1
      cases asText_inv hk
      refine ⟨.inr (g, String.ofList k) :: l, .cons (.param (by rw [String.toList_ofList]; exact at_inv hb) (at_inv ha) (param_says a (h v List.mem_cons_self a (at_inv ha)) hg)) hf,
        ?_, ?_⟩
      · rw [e1]; simp [Circuit.addParamGate]
      · rw [e2]; simp [Circuit.addParamGate, List.replicate_succ]
    · rename_i hk
      obtain ⟨a, ha, h1⟩ := bind_ok h1
      obtain ⟨g, hg, h1⟩ := bind_ok h1
      cases h1
      refine ⟨.inl g :: l, .cons (.gate (contains_false hk) (at_inv ha) (gate_says a (h v List.mem_cons_self a (at_inv ha)) hg)) hf, ?_, ?_⟩
      · rw [e1]; simp [Circuit.addGate]
      · rw [e2]; simp [Circuit.addGate, List.replicate_succ]

end Verif.Proofs
