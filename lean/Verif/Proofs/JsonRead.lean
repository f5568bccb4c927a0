import Verif.Proofs.JsonState
import Verif.Proofs.JsonFit
import Verif.Proofs.QasmSafe

/-!
# Reading arbitrary JSON: helper lemmas
-/

namespace Verif.Proofs
open Verif Verif.Spec Verif.Model

attribute [-simp] BitVec.getLsbD_eq_getElem

/-- a result with the property, or an exception -/
def Gives {α : Type} (P : α → Prop) (x : Res α) : Prop := (∃ a, x = .ok a ∧ P a) ∨ ∃ m, x = .error (.throw m)

theorem Gives.ok {α : Type} {P : α → Prop} {a : α} (h : P a) : Gives P (.ok a : Res α) := .inl ⟨a, rfl, h⟩
theorem Gives.pure {α : Type} {P : α → Prop} {a : α} (h : P a) : Gives P (Pure.pure a : Res α) := .inl ⟨a, rfl, h⟩
theorem Gives.throw {α : Type} {P : α → Prop} (m : String) : Gives P (.error (.throw m) : Res α) := .inr ⟨m, rfl⟩

theorem Gives.bind {α β : Type} {P : α → Prop} {Q : β → Prop} {x : Res α} (h : Gives P x) {f : α → Res β}
    (hf : ∀ a, x = .ok a → P a → Gives Q (f a)) : Gives Q (x >>= f) := by
  rcases h with ⟨a, rfl, ha⟩ | ⟨m, rfl⟩
  · exact hf a rfl ha
  · exact .throw m

theorem Defined.gives {α : Type} {x : Res α} (h : Defined x) : Gives (fun a => x = .ok a) x := by
  rcases h with ⟨a, rfl⟩ | ⟨m, rfl⟩
  · exact .ok rfl
  · exact .throw m

theorem Gives.mono {α : Type} {P Q : α → Prop} {x : Res α} (h : Gives P x) (hPQ : ∀ a, x = .ok a → P a → Q a) : Gives Q x := by
  rcases h with ⟨a, rfl, ha⟩ | ⟨m, rfl⟩
  · exact .ok (hPQ a rfl ha)
  · exact .throw m

theorem Gives.mapM {α β : Type} {P : β → Prop} {f : α → Res β} (l : List α) (hf : ∀ a ∈ l, Gives P (f a)) :
    Gives (fun bs => ∀ b ∈ bs, P b) (l.mapM f) := by
  induction l with
  | nil => exact .pure (by simp)
  | cons a l ih =>
    rw [List.mapM_cons]
    refine (hf a List.mem_cons_self).bind fun b _ hb => (ih fun x hx => hf x (List.mem_cons_of_mem _ hx)).bind fun bs _ hbs => .pure ?_
    intro y hy
    rcases List.mem_cons.1 hy with rfl | hy
    · exact hb
    · exact hbs y hy

theorem Gives.foldlM {α β : Type} {P : β → Prop} {f : β → α → Res β} (l : List α) {b : β} (hb : P b)
    (hf : ∀ b a, a ∈ l → P b → Gives P (f b a)) : Gives P (l.foldlM f b) := by
  induction l generalizing b with
  | nil => exact .pure hb
  | cons a l ih =>
    rw [List.foldlM_cons]
    exact (hf b a List.mem_cons_self hb).bind fun b' _ hb' => ih hb' fun c x hx hc => hf c x (List.mem_cons_of_mem _ hx) hc

theorem resMapM_length {α β : Type} {f : α → Res β} {l : List α} {r : List β} (h : l.mapM f = .ok r) : r.length = l.length := by
  induction l generalizing r with
  | nil => cases h; rfl
  | cons a l ih =>
    rw [List.mapM_cons] at h
    obtain ⟨b, -, h⟩ := bind_ok h
    obtain ⟨bs, hb, h⟩ := bind_ok h
    cases h
    simp [ih hb]

theorem gives_at (j : Json) (k : Text) : Gives (fun a => j.at k = .ok a) (j.at k) := by
  refine Defined.gives ?_
  unfold Json.at
  split
  · split
    · exact .ok _
    · exact .throw _
  · exact .throw _

theorem gives_asArray (j : Json) : Gives (fun l => j = .arr l) j.asArray := by
  unfold Json.asArray
  split
  · exact .ok rfl
  · exact .throw _

theorem defined_asReal (j : Json) : Defined j.asReal := by
  unfold Json.asReal
  split <;> first | exact .ok _ | exact .throw _

theorem defined_asText (j : Json) : Defined j.asText := by
  unfold Json.asText
  split <;> first | exact .ok _ | exact .throw _

theorem defined_asBool (j : Json) : Defined j.asBool := by
  unfold Json.asBool
  split <;> first | exact .ok _ | exact .throw _

theorem defined_asUInt {j : Json} (h : ∀ r, j ≠ .real r) : Defined j.asUInt := by
  unfold Json.asUInt
  split
  · exact .ok _
  · exact .ok _
  · exact absurd rfl (h _)
  · exact .throw _

theorem gives_uints {j : Json} {k : Text} (h : ∀ l, j.at k = .ok (.arr l) → ∀ x ∈ l, ∀ r, x ≠ .real r) :
    Gives (fun l => j.uints k = .ok l) (j.uints k) := by
  have : Gives (fun _ => True) (j.uints k) := by
    unfold Json.uints
    refine (gives_at j k).bind fun a _ ha => (gives_asArray a).bind fun l _ hl => ?_
    refine (Gives.mapM (P := fun _ => True) l fun x hx => ?_).mono fun _ _ _ => trivial
    exact (defined_asUInt (h l (by rw [ha, hl]) x hx)).gives.mono fun _ _ _ => trivial
  exact this.mono fun a h _ => h

theorem defined_number (j : Json) (k : Text) : Gives (fun _ => True) (j.number k) := by
  unfold Json.number
  exact (gives_at j k).bind fun a _ _ => (defined_asReal a).gives.mono fun _ _ _ => trivial

theorem gives_distribution (j : Json) : Gives (fun _ => True) j.distribution := by
  unfold Json.distribution
  refine (gives_at j _).bind fun a _ ha => (gives_asArray a).bind fun l _ hl => ?_
  exact (Gives.mapM (P := fun _ => True) l fun x _ => (defined_asReal x).gives.mono fun _ _ _ => trivial).mono fun _ _ _ => trivial

theorem gives_complex {j : Json} (h : ∀ fs, j = .obj fs → (fs.lookup (t! "real")).isSome = true ∧ (fs.lookup (t! "imag")).isSome = true) :
    Gives (fun _ => True) (complexOfJson j) := by
  unfold complexOfJson
  have hi : ∀ k : Text, (∀ fs, j = .obj fs → (fs.lookup k).isSome = true) → Gives (fun _ => True) (j.index k) := by
    intro k hk
    unfold Json.index
    split
    · rename_i fs
      have := hk fs rfl
      split
      · exact .ok trivial
      · rename_i h0
        rw [h0] at this
        cases this
    · exact .throw _
  refine (hi _ fun fs e => (h fs e).1).bind fun a _ _ => (defined_asReal a).gives.bind fun x _ _ => ?_
  refine (hi _ fun fs e => (h fs e).2).bind fun a _ _ => (defined_asReal a).gives.bind fun y _ _ => .pure trivial

theorem gives_pauli {j : Json} (h : ∀ c, j.at (t! "coef") = .ok c →
    ∀ fs, c = .obj fs → (fs.lookup (t! "real")).isSome = true ∧ (fs.lookup (t! "imag")).isSome = true) :
    Gives (fun _ => True) (PauliOp.ofJson j) := by
  unfold PauliOp.ofJson
  refine (gives_at j _).bind fun a _ _ => (defined_asText a).gives.bind fun s _ _ => (gives_at j _).bind fun c _ hc =>
    (gives_complex (h c hc)).bind fun z _ _ => ?_
  unfold PauliOp.ofString
  cases hp : PauliOp.parseLoop ⟨z, 0, 0⟩ s with
  | ok p => exact .ok trivial
  | error e =>
    obtain ⟨m, rfl⟩ := parse_error _ _ hp
    exact .throw m

theorem vectorToMask2_take (cs vs : List Nat) (m : U64) (h : cs.length ≤ vs.length) :
    vectorToMask2 cs vs m = vectorToMask2 cs (vs.take cs.length) m := by
  induction cs generalizing vs m with
  | nil => simp [vectorToMask2]
  | cons c cs ih =>
    cases vs with
    | nil => simp at h
    | cons v vs =>
      have h' : cs.length ≤ vs.length := by simpa using h
      simp only [List.length_cons, List.take_succ_cons]
      unfold vectorToMask2
      split
      · cases shl1 c with
        | error e => rfl
        | ok b => exact ih vs _ h'
      split
      · rfl
      · exact ih vs _ h'

theorem resize_same {cs vs : List Nat} (h : vs.length = cs.length) : resizeAndCheckControlValues cs vs = .ok vs := by
  unfold resizeAndCheckControlValues
  have : (if vs.isEmpty then List.replicate cs.length 1 else vs) = vs := by
    split
    · rename_i h0
      rw [List.isEmpty_iff] at h0
      subst h0
      simp at h
      simp [h.symm]
    · rfl
  dsimp only
  rw [this, if_neg (by omega)]

/-- the arrays of qubits and the numbers of a gate object are as the writer leaves them: no floating point numbers among the qubits, at least one value for every control,
both parts of a complex number -/
structure Numbers (j : Json) : Prop where
  ints : ∀ k ∈ [(t! "target"), (t! "control"), (t! "control_value"), (t! "dst"), (t! "physical_control"), (t! "physical_target")],
    ∀ l, j.at k = .ok (.arr l) → ∀ x ∈ l, ∀ r, x ≠ .real r
  cbit : ∀ r, j.at (t! "classical_bit") ≠ .ok (.real r)
  values : ∀ cs vs, j.uints (t! "control") = .ok cs → j.uints (t! "control_value") = .ok vs → cs.length ≤ vs.length
  parts : ∀ p c, j.at (t! "pauli") = .ok p → p.at (t! "coef") = .ok c →
    ∀ fs, c = .obj fs → (fs.lookup (t! "real")).isSome = true ∧ (fs.lookup (t! "imag")).isSome = true

/-- what the masks are read from -/
structure Controls (j : Json) (c v : U64) (cs vs : List Nat) : Prop where
  len : vs.length = cs.length
  hc : vectorToMask cs = .ok c
  hv : vectorToMask2 cs vs 0 = .ok v

theorem gives_controls {j : Json} (h : Numbers j) : Gives (fun m => ∃ cs vs, Controls j m.1 m.2 cs vs) j.controlMasks := by
  unfold Json.controlMasks
  refine (gives_uints (h.ints _ (by simp))).bind fun cs _ hcs => (gives_uints (h.ints _ (by simp))).bind fun vs _ hvs => ?_
  have hl := h.values cs vs hcs hvs
  refine (vectorToMask_defined cs).gives.bind fun c hc _ => ?_
  have hl' : (vs.take cs.length).length = cs.length := by simp [hl]
  rw [vectorToMask2_take cs vs 0 hl]
  exact (vectorToMask2_defined hl'.symm (vectorToMask_lt hc) 0).gives.bind fun v hv _ => .pure ⟨cs, _, hl', hc, hv⟩

theorem gives_masks {j : Json} (h : Numbers j) : Gives (fun m => ∃ ts cs vs, j.uints (t! "target") = .ok ts ∧ vectorToMask ts = .ok m.1 ∧
    Controls j m.2.1 m.2.2 cs vs) j.masks := by
  unfold Json.masks
  refine (gives_uints (h.ints _ (by simp))).bind fun cs _ hcs => (gives_uints (h.ints _ (by simp))).bind fun vs _ hvs =>
    (gives_uints (h.ints _ (by simp))).bind fun ts _ hts => ?_
  have hl := h.values cs vs hcs hvs
  refine (vectorToMask_defined ts).gives.bind fun t ht _ => (vectorToMask_defined cs).gives.bind fun c hc _ => ?_
  have hl' : (vs.take cs.length).length = cs.length := by simp [hl]
  rw [vectorToMask2_take cs vs 0 hl]
  exact (vectorToMask2_defined hl'.symm (vectorToMask_lt hc) 0).gives.bind fun v hv _ => .pure ⟨ts, cs, _, hts, ht, hl', hc, hv⟩

theorem gateBase_defined (t c v : U64) : Defined (gateBase t c v) := by
  unfold gateBase
  split
  · exact .throw _
  · exact .ok _

theorem mkOperands_read {j : Json} {t c v : U64} {ts cs vs : List Nat} {o : Operands} (ht : vectorToMask ts = .ok t) (h : Controls j c v cs vs)
    (ho : gateBase t c v = .ok o) : mkOperands ts cs vs = .ok o := by
  unfold mkOperands
  rw [resize_same h.len, ok_bind, ht, ok_bind, h.hc, ok_bind, h.hv, ok_bind, ho]

theorem mkPauli_read {j : Json} {p : PauliOp} {c v : U64} {cs vs : List Nat} {g : PauliGate} (h : Controls j c v cs vs)
    (hg : pauliCtor c v p = .ok g) : mkPauli p cs vs = .ok g := by
  unfold mkPauli
  rw [resize_same h.len, ok_bind, h.hc, ok_bind, h.hv, ok_bind]
  exact hg

theorem pauliCtor_defined (c v : U64) (p : PauliOp) : Defined (pauliCtor c v p) := by
  unfold pauliCtor
  exact (gateBase_defined _ _ _).bind fun o _ => .pure _

theorem permCtor_defined {dst : List Nat} (hk : dst.length < 64) : Defined (permCtor dst) := by
  by_cases hd : IsPerm dst
  · exact .inl (permCtor_complete hk hd)
  · unfold permCtor
    refine (vectorToMask_defined _).bind fun mask hm => (gateBase_defined _ _ _).bind fun o _ => ?_
    rw [shl1, if_pos hk, ok_bind, if_pos]
    · exact .throw _
    · intro h
      exact hd ((isPerm_iff hk hm).1 h)

theorem mkPerm_of_ctor {dst : List Nat} {g : PermGate} (hk : dst.length < 64) (h : permCtor dst = .ok g) : mkPerm dst = .ok g := by
  obtain ⟨g', hg'⟩ := mkPerm_complete hk (permCtor_spec hk h).1
  have := (mkPerm_ok hg').2
  rw [h] at this
  cases this
  exact hg'

end Verif.Proofs
