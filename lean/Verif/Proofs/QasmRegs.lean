import Verif.Proofs.QasmFuel
import Verif.Spec.Qasm

/-! # OpenQASM: registers of a program that was read -/

namespace Verif.Proofs
open Verif Verif.Spec Verif.Model

/-- names and sizes of the registers, in the order of their declaration -/
def declsOf (regs : Registers) : List (Text × Nat) := regs.map fun p => (p.1, p.2.size)

/-- the registers follow one another, modulo `2^64` -/
def Consecutive (regs : Registers) (total : Nat) : Prop :=
  (∀ name r, regs.lookup name = some r → ∃ before after, regs = before ++ (name, r) :: after ∧
    r.offset = totalSize (declsOf before) % 2 ^ 64 ∧ ∀ p ∈ before, p.1 ≠ name) ∧
  total = totalSize (declsOf regs) % 2 ^ 64

theorem consecutive_nil : Consecutive [] 0 := ⟨fun _ _ h => absurd h (by simp), rfl⟩

theorem totalSize_append (a b : List (Text × Nat)) : totalSize (a ++ b) = totalSize a + totalSize b := by
  simp [totalSize]

theorem lookup_none_ne {regs : Registers} {name : Text} (h : regs.lookup name = none) : ∀ p ∈ regs, p.1 ≠ name := by
  intro p hp e
  rw [List.lookup_eq_none_iff] at h
  have := h p hp
  simp [e] at this

theorem consecutive_snoc {regs : Registers} {total size : Nat} {name : Text} (h : Consecutive regs total)
    (hn : regs.lookup name = none) : Consecutive (regs ++ [(name, ⟨total, size⟩)]) ((total + size) % 2 ^ 64) := by
  obtain ⟨h1, h2⟩ := h
  constructor
  · intro m r hm
    rw [List.lookup_append] at hm
    cases hl : regs.lookup m with
    | some r' =>
      rw [hl] at hm
      cases hm
      obtain ⟨b, a, e, ho, hb⟩ := h1 m r hl
      exact ⟨b, a ++ [(name, ⟨total, size⟩)], by rw [e]; simp, ho, hb⟩
    | none =>
      rw [hl] at hm
      simp only [Option.none_or] at hm
      rw [List.lookup_cons] at hm
      by_cases he : m = name
      · subst he
        simp at hm
        subst hm
        exact ⟨regs, [], rfl, h2, lookup_none_ne hn⟩
      · rw [show (m == name) = false by simpa using he] at hm
        cases hm
  · rw [h2]
    unfold declsOf
    rw [List.map_append, totalSize_append, List.map_cons, List.map_nil]
    show _ = (_ + (size + 0)) % 2 ^ 64
    rw [Nat.mod_add_mod, Nat.add_zero]

theorem flatIndex_before {before after : Registers} {name : Text} {r : QReg} (hb : ∀ p ∈ before, p.1 ≠ name) (i : Nat) :
    flatIndex (declsOf (before ++ (name, r) :: after)) name i = if i < r.size then some (totalSize (declsOf before) + i) else none := by
  induction before with
  | nil =>
    simp only [declsOf, List.nil_append, List.map_cons]
    unfold flatIndex
    rw [if_pos rfl]
    split <;> simp [totalSize]
  | cons p before ih =>
    obtain ⟨m, s⟩ := p
    have hm := hb (m, s) List.mem_cons_self
    rw [show declsOf ((m, s) :: before ++ (name, r) :: after) = (m, s.size) :: declsOf (before ++ (name, r) :: after) from rfl]
    unfold flatIndex
    rw [if_neg hm, ih fun p hp => hb p (List.mem_cons_of_mem _ hp)]
    split
    · show some _ = some _
      congr 1
      show s.size + (totalSize (declsOf before) + i) = (s.size + totalSize (declsOf before)) + i
      omega
    · rfl

theorem flatIndex_unknown {regs : Registers} {name : Text} (h : ∀ p ∈ regs, p.1 ≠ name) (i : Nat) : flatIndex (declsOf regs) name i = none := by
  induction regs with
  | nil => rfl
  | cons p regs ih =>
    show flatIndex ((p.1, p.2.size) :: declsOf regs) name i = none
    unfold flatIndex
    rw [if_neg (h p List.mem_cons_self), ih fun p hp => h p (List.mem_cons_of_mem _ hp)]
    rfl

/-- element `i` of register `name` as an operand -/
def elementText (name : Text) (i : Nat) : Text := name ++ '[' :: (decimal i ++ t! "]")

/-- a register name -/
def RegName (name : Text) : Prop := ∀ c ∈ name, isWord c = true

theorem isWord_facts {c : Char} (h : isWord c = true) : isBlank c = false ∧ c ≠ '[' ∧ c ≠ ']' := by
  refine ⟨?_, ?_, ?_⟩
  · by_contra hb
    rw [Bool.not_eq_false] at hb
    unfold isBlank at hb
    simp only [Bool.or_eq_true, beq_iff_eq] at hb
    rcases hb with ((((rfl | rfl) | rfl) | rfl) | rfl) | rfl <;> revert h <;> decide
  · rintro rfl; revert h; decide
  · rintro rfl; revert h; decide

theorem decimal_word (i : Nat) : ∀ c ∈ decimal i, isWord c = true := by
  intro c hc
  have := (decimal_spec i).1 c hc
  unfold isWord Char.isAlphanum
  simp [this]

theorem operand_parsed {name : Text} (hn : RegName name) (i : Nat) : bracketed (trim (elementText name i)) = some (name, decimal i) := by
  have hs : Solid (elementText name i) := by
    intro c hc
    unfold elementText at hc
    rcases List.mem_append.1 hc with h | h
    · exact (isWord_facts (hn c h)).1
    · rcases List.mem_cons.1 h with rfl | h
      · decide
      · rcases List.mem_append.1 h with h | h
        · exact (isWord_facts (decimal_word i c h)).1
        · rw [List.mem_singleton.1 h]; decide
  rw [trim_of_trimmed hs.trimmed]
  unfold elementText
  rw [bracketed_indexed (fun c hc => (isWord_facts (hn c hc)).2) (fun c hc => (isWord_facts (decimal_word i c hc)).2)]
  rw [trim_of_trimmed (Solid.trimmed fun c hc => (isWord_facts (hn c hc)).1),
    trim_of_trimmed (Solid.trimmed fun c hc => (isWord_facts (decimal_word i c hc)).1)]

/-- an operand denotes its flat index, or an exception is thrown -/
theorem operand_flat {regs : Registers} {total : Nat} (hc : Consecutive regs total) (ht : totalSize (declsOf regs) < 2 ^ 64) {name : Text}
    (hn : RegName name) {i : Nat} (hi : i < 2 ^ 64) :
    (∀ a, flatIndex (declsOf regs) name i = some a → parseIndexedRegister (elementText name i) regs = .ok a) ∧
    (flatIndex (declsOf regs) name i = none → ∃ m, parseIndexedRegister (elementText name i) regs = .error (.throw m)) := by
  unfold parseIndexedRegister
  rw [operand_parsed hn]
  dsimp only
  cases hl : regs.lookup name with
  | none =>
    rw [flatIndex_unknown (lookup_none_ne hl)]
    exact ⟨fun a h => by simp at h, fun _ => ⟨_, rfl⟩⟩
  | some r =>
    obtain ⟨b, a, e, ho, hb⟩ := hc.1 name r hl
    dsimp only
    rw [wholeInteger_decimal hi]
    dsimp only
    have hf := flatIndex_before (after := a) (r := r) hb i
    rw [← e] at hf
    have hsum : totalSize (declsOf b) + r.size ≤ totalSize (declsOf regs) := by
      rw [e]
      unfold declsOf
      rw [List.map_append, totalSize_append, List.map_cons]
      show _ ≤ _ + (r.size + _)
      omega
    rw [hf]
    by_cases hlt : i < r.size
    · rw [if_pos hlt, if_neg (by omega), ho, Nat.mod_add_mod, Nat.mod_eq_of_lt (by omega)]
      refine ⟨fun x hx => ?_, fun h => by simp at h⟩
      cases hx
      rfl
    · rw [if_neg hlt, if_pos (by omega)]
      exact ⟨fun a h => by simp at h, fun _ => ⟨_, rfl⟩⟩

/-! ## what a statement does to the registers -/

/-- registers and counts -/
def Reader.registers (r : Reader) : Registers × Nat × Registers × Nat := (r.qregs, r.nQubits, r.cregs, r.nClbits)

theorem add_registers {r r' : Reader} {d : GateDesc} (h : r.add d = .ok r') : Reader.registers r' = Reader.registers r := by
  unfold Reader.add at h
  obtain ⟨g, -, h⟩ := bind_ok h
  cases h
  rfl

theorem parseGate_registers {lib : Libc} {r r' : Reader} {s : Text} (h : r.parseGate lib s = .ok r') :
    Reader.registers r' = Reader.registers r := by
  unfold Reader.parseGate at h
  have hv : Reader.registers (if r.sawVersion then r else { r with warnings := r.warnings ++ ["OPENQASM 2.0 header is missing"], sawVersion := true })
      = Reader.registers r := by split <;> rfl
  rw [← hv]
  generalize (if r.sawVersion then r else { r with warnings := r.warnings ++ ["OPENQASM 2.0 header is missing"], sawVersion := true }) = r0 at h ⊢
  dsimp only at h
  split at h
  · cases h
  · obtain ⟨⟨ps, rest⟩, -, h⟩ := bind_ok h
    obtain ⟨ops, -, h⟩ := bind_ok h
    obtain ⟨qs, -, h⟩ := bind_ok h
    split at h
    · cases h
    · obtain ⟨o, -, h⟩ := bind_ok h
      cases o with
      | none => cases h; rfl
      | some d => exact add_registers h

theorem foldlM_registers {α : Type} {f : Reader → α → Res Reader} (hf : ∀ r a r', f r a = .ok r' → Reader.registers r' = Reader.registers r)
    {l : List α} {r r' : Reader} (h : l.foldlM f r = .ok r') : Reader.registers r' = Reader.registers r := by
  induction l generalizing r with
  | nil => cases h; rfl
  | cons a l ih =>
    rw [List.foldlM_cons] at h
    obtain ⟨r1, h1, h⟩ := bind_ok h
    rw [ih h, hf _ _ _ h1]

theorem parseMeasure_registers {r r' : Reader} {s : Text} (h : r.parseMeasure s = .ok r') : Reader.registers r' = Reader.registers r := by
  unfold Reader.parseMeasure at h
  dsimp only at h
  split at h
  · cases h
  · obtain ⟨q, -, h⟩ := bind_ok h
    obtain ⟨c, -, h⟩ := bind_ok h
    split at h
    · cases h
    · refine foldlM_registers (fun r a r' h => ?_) h
      obtain ⟨g, -, h⟩ := bind_ok h
      cases h
      rfl

theorem handle_registers {lib : Libc} {r r' : Reader} {s : Text} (h : r.handle lib s = .ok r') :
    Reader.registers r' = Reader.registers r ∨
    (∃ name size, r.qregs.lookup name = none ∧ 0 < size ∧
      Reader.registers r' = (r.qregs ++ [(name, ⟨r.nQubits, size⟩)], (r.nQubits + size) % 2 ^ 64, r.cregs, r.nClbits)) ∨
    (∃ name size, r.cregs.lookup name = none ∧ 0 < size ∧
      Reader.registers r' = (r.qregs, r.nQubits, r.cregs ++ [(name, ⟨r.nClbits, size⟩)], (r.nClbits + size) % 2 ^ 64)) := by
  have decl : ∀ {s kw : Text} {n : Nat}, parseRegisterDecl s kw = .ok n → 0 < n := by
    intro s kw n h
    unfold parseRegisterDecl at h
    split at h
    · cases h
    · split at h
      · cases h
      · split at h
        · cases h
        · cases h; omega
  unfold Reader.handle at h
  dsimp only at h
  split at h
  · cases h; exact .inl rfl
  split at h
  · split at h
    · cases h
    · cases h; exact .inl rfl
  split at h
  · obtain ⟨name, -, h⟩ := bind_ok h
    split at h
    · cases h
    · rename_i hn
      obtain ⟨size, hs, h⟩ := bind_ok h
      cases h
      exact .inr (.inl ⟨name, size, Option.not_isSome_iff_eq_none.1 hn, decl hs, rfl⟩)
  split at h
  · obtain ⟨name, -, h⟩ := bind_ok h
    split at h
    · cases h
    · rename_i hn
      obtain ⟨size, hs, h⟩ := bind_ok h
      cases h
      exact .inr (.inr ⟨name, size, Option.not_isSome_iff_eq_none.1 hn, decl hs, rfl⟩)
  split at h
  · cases h; exact .inl rfl
  split at h
  · exact .inl (parseMeasure_registers h)
  split at h
  · cases h
  · exact .inl (parseGate_registers h)

theorem statements_consecutive {lib : Libc} {l : List Text} {r r' : Reader} (h : l.foldlM (Reader.handle lib) r = .ok r')
    (hq : Consecutive r.qregs r.nQubits) (hc : Consecutive r.cregs r.nClbits) :
    Consecutive r'.qregs r'.nQubits ∧ Consecutive r'.cregs r'.nClbits := by
  induction l generalizing r with
  | nil => cases h; exact ⟨hq, hc⟩
  | cons s l ih =>
    rw [List.foldlM_cons] at h
    obtain ⟨r1, h1, h⟩ := bind_ok h
    have key : Consecutive r1.qregs r1.nQubits ∧ Consecutive r1.cregs r1.nClbits := by
      rcases handle_registers h1 with e | ⟨name, size, hn, -, e⟩ | ⟨name, size, hn, -, e⟩
      · simp only [Reader.registers, Prod.mk.injEq] at e
        obtain ⟨e1, e2, e3, e4⟩ := e
        rw [e1, e2, e3, e4]
        exact ⟨hq, hc⟩
      · simp only [Reader.registers, Prod.mk.injEq] at e
        obtain ⟨e1, e2, e3, e4⟩ := e
        rw [e1, e2, e3, e4]
        exact ⟨consecutive_snoc hq hn, hc⟩
      · simp only [Reader.registers, Prod.mk.injEq] at e
        obtain ⟨e1, e2, e3, e4⟩ := e
        rw [e1, e2, e3, e4]
        exact ⟨hq, consecutive_snoc hc hn⟩
    exact ih h key.1 key.2

theorem loads_consecutive {lib : Libc} {text : Text} {R : Reader} (h : loads lib text = .ok R) :
    Consecutive R.qregs R.nQubits ∧ Consecutive R.cregs R.nClbits := by
  unfold loads at h
  obtain ⟨stmts, -, h⟩ := bind_ok h
  exact statements_consecutive h consecutive_nil consecutive_nil

/-- later statements only append registers -/
theorem statements_prefix {lib : Libc} {l : List Text} {r r' : Reader} (h : l.foldlM (Reader.handle lib) r = .ok r') :
    (∃ more, r'.qregs = r.qregs ++ more) ∧ ∃ more, r'.cregs = r.cregs ++ more := by
  induction l generalizing r with
  | nil => cases h; exact ⟨⟨[], by simp⟩, [], by simp⟩
  | cons s l ih =>
    rw [List.foldlM_cons] at h
    obtain ⟨r1, h1, h⟩ := bind_ok h
    obtain ⟨⟨m1, e1⟩, m2, e2⟩ := ih h
    rcases handle_registers h1 with e | ⟨name, size, hn, -, e⟩ | ⟨name, size, hn, -, e⟩ <;>
    · simp only [Reader.registers, Prod.mk.injEq] at e
      obtain ⟨f1, -, f3, -⟩ := e
      rw [e1, e2, f1, f3]
      constructor <;> first | exact ⟨_, rfl⟩ | exact ⟨_, List.append_assoc _ _ _⟩

/-- an operand means the same at every place of the program -/
theorem operand_prefix {regs more : Registers} {operand : Text} {a : Nat} (h : parseIndexedRegister operand regs = .ok a) :
    parseIndexedRegister operand (regs ++ more) = .ok a := by
  unfold parseIndexedRegister at h ⊢
  split at h
  · cases h
  · rename_i name ix hb
    split at h
    · cases h
    · rename_i r hr
      rw [List.lookup_append, hr]
      exact h

end Verif.Proofs
