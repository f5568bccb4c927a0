import Verif.Spec.JsonSays
import Verif.Proofs.JsonRead
import Verif.Proofs.JsonCircuit
import Verif.Proofs.QasmLooseParts

/-! # What has been read from JSON -/

namespace Verif.Proofs
open Verif Verif.Spec Verif.Model

attribute [-simp] BitVec.getLsbD_eq_getElem

theorem at_inv {j v : Json} {k : Text} (h : j.at k = .ok v) : Entry j k v := by
  unfold Json.at at h
  split at h
  · split at h
    · rename_i h1
      cases h
      exact ⟨_, rfl, h1⟩
    · cases h
  · cases h

theorem index_inv {j v : Json} {k : Text} (h : j.index k = .ok v) : Entry j k v := by
  unfold Json.index at h
  split at h
  · split at h
    · rename_i h1
      cases h
      exact ⟨_, rfl, h1⟩
    · cases h
  · cases h

theorem at_of {j v : Json} {k : Text} (h : Entry j k v) : j.at k = .ok v := by
  obtain ⟨fs, rfl, h⟩ := h
  unfold Json.at
  dsimp only
  rw [h]

theorem contains_false {j : Json} {k : Text} (h : ¬ j.contains k = true) : ∀ v, ¬ Entry j k v := by
  rintro v ⟨fs, rfl, hv⟩
  apply h
  unfold Json.contains
  dsimp only
  rw [hv]
  rfl

theorem asUInt_inv {v : Json} {n : Nat} (h : v.asUInt = .ok n) : IntSays v n := by
  cases v <;> unfold Json.asUInt at h <;> dsimp only at h
  case uint m => cases h; exact .unsigned _
  case int z =>
    cases h
    have h0 := Int.emod_nonneg z (b := 2 ^ 64) (by norm_num)
    have h1 := Int.emod_lt_of_pos z (b := 2 ^ 64) (by norm_num)
    refine .signed _ _ (by omega) ?_
    rw [Int.toNat_of_nonneg h0]
    exact Int.mod_modEq z _
  case real x =>
    split at h
    · rename_i hx
      cases h
      refine .real _ _ hx.1 (Nat.lt_floor_add_one x) ?_ ?_
      · by_cases h0 : 0 ≤ x
        · rw [Nat.floor_lt h0]
          exact_mod_cast hx.2
        · rw [Nat.floor_of_nonpos (by linarith)]
          norm_num
      · by_cases h0 : 0 ≤ x
        · exact .inl (Nat.floor_le h0)
        · exact .inr (Nat.floor_of_nonpos (by linarith))
    · cases h
  all_goals cases h

theorem asReal_inv {v : Json} {x : ℝ} (h : v.asReal = .ok x) : RealSays v x := by
  cases v <;> unfold Json.asReal at h <;> dsimp only at h <;> first | (cases h; constructor) | cases h

theorem asText_inv {v : Json} {s : Text} (h : v.asText = .ok s) : v = .str s := by
  cases v <;> unfold Json.asText at h <;> dsimp only at h <;> first | (cases h; rfl) | cases h

theorem asBool_inv {v : Json} {b : Bool} (h : v.asBool = .ok b) : v = .bool b := by
  cases v <;> unfold Json.asBool at h <;> dsimp only at h <;> first | (cases h; rfl) | cases h

theorem asArray_inv {v : Json} {l : List Json} (h : v.asArray = .ok l) : v = .arr l := by
  cases v <;> unfold Json.asArray at h <;> dsimp only at h <;> first | (cases h; rfl) | cases h

theorem uints_inv {j : Json} {k : Text} {l : List Nat} (h : j.uints k = .ok l) : ListEntry j k l := by
  unfold Json.uints at h
  obtain ⟨a, h1, h⟩ := bind_ok h
  obtain ⟨vs, h2, h⟩ := bind_ok h
  cases asArray_inv h2
  exact ⟨vs, at_inv h1, (mapM_forall₂ h).imp fun _ _ => asUInt_inv⟩

theorem field_inv {j : Json} {k : Text} {x : ℝ} (h : j.number k = .ok x) : RealEntry j k x := by
  unfold Json.number at h
  obtain ⟨a, h1, h⟩ := bind_ok h
  exact ⟨a, at_inv h1, asReal_inv h⟩

theorem distribution_inv {j : Json} {l : List ℝ} (h : j.distribution = .ok l) : RealsEntry j (t! "distribution") l := by
  unfold Json.distribution at h
  obtain ⟨a, h1, h⟩ := bind_ok h
  obtain ⟨vs, h2, h⟩ := bind_ok h
  cases asArray_inv h2
  exact ⟨vs, at_inv h1, (mapM_forall₂ h).imp fun _ _ => asReal_inv⟩

theorem typeName_inv {j : Json} {s : Text} (h : j.typeName = .ok s) : TextEntry j (t! "type") s := by
  unfold Json.typeName at h
  obtain ⟨a, h1, h⟩ := bind_ok h
  cases asText_inv h
  exact at_inv h1

theorem gateArray_inv {j : Json} {l : List Json} (h : j.gateArray = .ok l) : Entry j (t! "gate_list") (.arr l) := by
  unfold Json.gateArray at h
  obtain ⟨a, h1, h⟩ := bind_ok h
  cases asArray_inv h
  exact at_inv h1

theorem pauli_inv {j : Json} {p : PauliOp} (h : PauliOp.ofJson j = .ok p) : PauliSays j p := by
  unfold PauliOp.ofJson at h
  obtain ⟨a, h1, h⟩ := bind_ok h
  obtain ⟨s, h2, h⟩ := bind_ok h
  obtain ⟨b, h3, h⟩ := bind_ok h
  obtain ⟨z, h4, h⟩ := bind_ok h
  cases asText_inv h2
  unfold complexOfJson at h4
  obtain ⟨x, h5, h4⟩ := bind_ok h4
  obtain ⟨re, h6, h4⟩ := bind_ok h4
  obtain ⟨y, h7, h4⟩ := bind_ok h4
  obtain ⟨im, h8, h4⟩ := bind_ok h4
  cases h4
  exact ⟨s, b, re, im, at_inv h1, at_inv h3, ⟨x, index_inv h5, asReal_inv h6⟩, ⟨y, index_inv h7, asReal_inv h8⟩, h⟩

theorem vectorToMask2_length {cs vs : List Nat} {m v : U64} (h : vectorToMask2 cs vs m = .ok v) : cs.length ≤ vs.length := by
  induction cs generalizing vs m with
  | nil => simp
  | cons c cs ih =>
    cases vs with
    | nil => cases h
    | cons x vs =>
      unfold vectorToMask2 at h
      split at h
      · obtain ⟨b, -, h⟩ := bind_ok h
        have := ih h
        simpa using this
      · split at h
        · cases h
        · have := ih h
          simpa using this

theorem controls_make {j : Json} {cs vs : List Nat} {c v : U64} (h1 : j.uints (t! "control") = .ok cs) (h2 : j.uints (t! "control_value") = .ok vs)
    (h3 : vectorToMask cs = .ok c) (h4 : vectorToMask2 cs vs 0 = .ok v) : ∃ vs, ControlsSay j cs vs ∧ Controls j c v cs vs := by
  have hl := vectorToMask2_length h4
  have hl' : (vs.take cs.length).length = cs.length := by simp [hl]
  rw [vectorToMask2_take cs vs 0 hl] at h4
  exact ⟨vs.take cs.length, ⟨uints_inv h1, hl', vs.drop cs.length, by rw [List.take_append_drop]; exact uints_inv h2⟩, hl', h3, h4⟩

theorem controlMasks_inv {j : Json} {m : U64 × U64} (h : j.controlMasks = .ok m) : ∃ cs vs, ControlsSay j cs vs ∧ Controls j m.1 m.2 cs vs := by
  unfold Json.controlMasks at h
  obtain ⟨cs, h1, h⟩ := bind_ok h
  obtain ⟨vs, h2, h⟩ := bind_ok h
  obtain ⟨c, h3, h⟩ := bind_ok h
  obtain ⟨v, h4, h⟩ := bind_ok h
  cases h
  exact ⟨cs, controls_make h1 h2 h3 h4⟩

theorem masks_inv {j : Json} {m : U64 × U64 × U64} (h : j.masks = .ok m) :
    ∃ ts cs vs, ListEntry j (t! "target") ts ∧ vectorToMask ts = .ok m.1 ∧ ControlsSay j cs vs ∧ Controls j m.2.1 m.2.2 cs vs := by
  unfold Json.masks at h
  obtain ⟨cs, h1, h⟩ := bind_ok h
  obtain ⟨vs, h2, h⟩ := bind_ok h
  obtain ⟨ts, h5, h⟩ := bind_ok h
  obtain ⟨t, h6, h⟩ := bind_ok h
  obtain ⟨c, h3, h⟩ := bind_ok h
  obtain ⟨v, h4, h⟩ := bind_ok h
  cases h
  obtain ⟨vs', h7, h8⟩ := controls_make h1 h2 h3 h4
  exact ⟨ts, cs, vs', uints_inv h5, h6, h7, h8⟩

theorem plain_inv {j : Json} {k : Gate1} {g : UGate} (hk : KindSays j k) (h1 : ∀ ts, ListEntry j (t! "target") ts → ts.length = 1)
    (h : readPlain k j = .ok g) : ∃ d, DescSays j d ∧ d.build = .ok g := by
  unfold readPlain at h
  obtain ⟨m, hm, h⟩ := bind_ok h
  obtain ⟨o, ho, h⟩ := bind_ok h
  cases h
  obtain ⟨ts, cs, vs, a, b, c, d⟩ := masks_inv hm
  obtain ⟨q, rfl⟩ := List.length_eq_one_iff.1 (h1 ts a)
  refine ⟨.one k q cs vs, .one k q cs vs hk a c, ?_⟩
  show (do let o ← mkOperands [q] cs vs; pure (UGate.one k o)) = _
  rw [mkOperands_read b d ho]
  rfl

theorem angles_inv {j : Json} {f : List ℝ → Option Gate1} {keys : List Text} {g : UGate}
    (hk : ∀ as k, List.Forall₂ (fun a key => RealEntry j key a) as keys → f as = some k → KindSays j k)
    (h1 : ∀ ts, ListEntry j (t! "target") ts → ts.length = 1) (h : readAngles f keys j = .ok g) : ∃ d, DescSays j d ∧ d.build = .ok g := by
  unfold readAngles at h
  obtain ⟨m, hm, h⟩ := bind_ok h
  obtain ⟨as, ha, h⟩ := bind_ok h
  obtain ⟨o, ho, h⟩ := bind_ok h
  split at h
  · rename_i k hf
    cases h
    obtain ⟨ts, cs, vs, a, b, c, d⟩ := masks_inv hm
    obtain ⟨q, rfl⟩ := List.length_eq_one_iff.1 (h1 ts a)
    refine ⟨.one k q cs vs, .one k q cs vs (hk as k ((mapM_forall₂ ha).imp fun _ _ => field_inv) hf) a c, ?_⟩
    show (do let o ← mkOperands [q] cs vs; pure (UGate.one k o)) = _
    rw [mkOperands_read b d ho]
    rfl
  · cases h

theorem shl1_lt {k : Nat} {b : U64} (h : shl1 k = .ok b) : k < 64 := by
  unfold shl1 at h
  by_contra hk
  simp [hk] at h

end Verif.Proofs
