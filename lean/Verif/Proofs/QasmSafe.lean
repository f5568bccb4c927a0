import Verif.Proofs.QasmFuel

/-! # OpenQASM: reading any text succeeds or throws -/

namespace Verif.Proofs
open Verif Verif.Spec Verif.Model

/-- a result or an exception -/
def Defined {α : Type} (x : Res α) : Prop := (∃ a, x = .ok a) ∨ ∃ m, x = .error (.throw m)

theorem Defined.ok {α : Type} (a : α) : Defined (.ok a : Res α) := .inl ⟨a, rfl⟩
theorem Defined.pure {α : Type} (a : α) : Defined (Pure.pure a : Res α) := .inl ⟨a, rfl⟩
theorem Defined.throw {α : Type} (m : String) : Defined (.error (.throw m) : Res α) := .inr ⟨m, rfl⟩

theorem Defined.bind {α β : Type} {x : Res α} (h : Defined x) {f : α → Res β} (hf : ∀ a, x = .ok a → Defined (f a)) : Defined (x >>= f) := by
  rcases h with ⟨a, rfl⟩ | ⟨m, rfl⟩
  · exact hf a rfl
  · exact .throw m

theorem Defined.foldlM {α β : Type} {f : β → α → Res β} (hf : ∀ b a, Defined (f b a)) (l : List α) (b : β) : Defined (l.foldlM f b) := by
  induction l generalizing b with
  | nil => exact .pure b
  | cons a l ih =>
    rw [List.foldlM_cons]
    exact (hf b a).bind fun b' _ => ih b'

theorem Defined.mapM {α β : Type} {f : α → Res β} (hf : ∀ a, Defined (f a)) (l : List α) : Defined (l.mapM f) := by
  induction l with
  | nil => exact .pure []
  | cons a l ih =>
    rw [List.mapM_cons]
    exact (hf a).bind fun b _ => ih.bind fun bs _ => .pure _

theorem vectorToMask_defined (l : List Nat) : Defined (vectorToMask l) := by
  refine .foldlM (fun m x => ?_) l 0
  unfold vectorToMaskStep
  split
  · exact .throw _
  split
  · exact .throw _
  unfold shl1
  rw [if_pos (by omega)]
  exact .pure _

theorem vectorToMask2_defined {cs vs : List Nat} (hl : cs.length = vs.length) (hlt : ∀ c ∈ cs, c < 64) (m : U64) :
    Defined (vectorToMask2 cs vs m) := by
  induction cs generalizing vs m with
  | nil => exact .ok _
  | cons c cs ih =>
    cases vs with
    | nil => cases hl
    | cons v vs =>
      have hl : cs.length = vs.length := by simpa using hl
      have hc := hlt c List.mem_cons_self
      have ih' := fun m => ih hl (fun c hc => hlt c (List.mem_cons_of_mem _ hc)) m
      unfold vectorToMask2
      split
      · unfold shl1
        rw [if_pos hc]
        exact ih' _
      split
      · exact .throw _
      · exact ih' _

theorem vectorToMask_lt {l : List Nat} {m m' : U64} (h : l.foldlM vectorToMaskStep m = .ok m') : ∀ c ∈ l, c < 64 := by
  induction l generalizing m with
  | nil => simp
  | cons x l ih =>
    rw [List.foldlM_cons] at h
    obtain ⟨m1, h1, h⟩ := bind_ok h
    have hx : x < 64 := by
      unfold vectorToMaskStep at h1
      split at h1
      · cases h1
      · omega
    intro c hc
    rcases List.mem_cons.1 hc with rfl | hc
    · exact hx
    · exact ih h c hc

theorem mkOperands_defined (ts cs vs : List Nat) : Defined (mkOperands ts cs vs) := by
  unfold mkOperands
  have hr : Defined (resizeAndCheckControlValues cs vs) := by
    unfold resizeAndCheckControlValues
    dsimp only
    generalize (if vs.isEmpty then List.replicate cs.length 1 else vs) = ws
    split
    · exact .throw _
    · exact .ok _
  refine hr.bind fun vs' hv => (vectorToMask_defined ts).bind fun t _ => (vectorToMask_defined cs).bind fun c hc => ?_
  have hl : cs.length = vs'.length := by
    unfold resizeAndCheckControlValues at hv
    dsimp only at hv
    generalize (if vs.isEmpty then List.replicate cs.length 1 else vs) = ws at hv
    split at hv
    · cases hv
    · rename_i h
      cases hv
      omega
  refine (vectorToMask2_defined hl (vectorToMask_lt hc) 0).bind fun v _ => ?_
  unfold gateBase
  split
  · exact .throw _
  · exact .ok _

theorem mkMeas_defined (q b : Nat) (reset : Bool) : Defined (mkMeas q b reset) := by
  unfold mkMeas
  refine (vectorToMask_defined _).bind fun t _ => Defined.bind ?_ fun o _ => .pure _
  unfold gateBase
  split
  · exact .throw _
  · exact .ok _

/-- the gates an OpenQASM program can mention -/
def QelibGate : GateDesc → Prop
  | .one .. => True
  | .swap .. => True
  | _ => False

theorem build_defined {d : GateDesc} (h : QelibGate d) : Defined d.build := by
  cases d with
  | one k q cs vs =>
    show Defined (do let o ← mkOperands [q] cs vs; pure (UGate.one k o))
    exact (mkOperands_defined _ _ _).bind fun o _ => .pure _
  | swap a b cs vs =>
    show Defined (do let o ← mkOperands [a, b] cs vs; pure (UGate.swap o))
    exact (mkOperands_defined _ _ _).bind fun o _ => .pure _
  | _ => exact h.elim

/-- defined, and only gates of the list -/
def Listed (x : Res (Option GateDesc)) : Prop := Defined x ∧ ∀ d, x = .ok (some d) → QelibGate d

theorem Listed.ite {p : Prop} [Decidable p] {x y : Res (Option GateDesc)} (hx : Listed x) (hy : Listed y) : Listed (if p then x else y) := by
  split
  · exact hx
  · exact hy

theorem Listed.throw (m : String) : Listed (.error (.throw m)) := ⟨.throw m, fun d h => by cases h⟩
theorem Listed.none : Listed (.ok none) := ⟨.ok _, fun d h => by cases h⟩
theorem Listed.one (k : Gate1) (q : Nat) (cs vs : List Nat) : Listed (.ok (some (.one k q cs vs))) := ⟨.ok _, fun d h => by cases h; trivial⟩
theorem Listed.swap (a b : Nat) (cs vs : List Nat) : Listed (.ok (some (.swap a b cs vs))) := ⟨.ok _, fun d h => by cases h; trivial⟩

theorem gateNamed_defined (name : Text) (ps : List ℝ) (qs : List Nat) : Listed (gateNamed name ps qs) := by
  unfold gateNamed expected
  repeat' first
    | exact Listed.throw _
    | exact Listed.none
    | exact Listed.one _ _ _ _
    | exact Listed.swap _ _ _ _
    | refine Listed.ite ?_ ?_
    | split

theorem splitCommaList_defined (s : Text) : Defined (splitCommaList s) := by
  have key : ∀ (s : Text) (n : Nat) (cur : Text) (parts : List Text), Defined (commaLoop s n cur parts) := by
    intro s
    induction s with
    | nil =>
      intro n cur parts
      unfold commaLoop
      split
      · exact .throw _
      · exact .ok _
    | cons c cs ih =>
      intro n cur parts
      unfold commaLoop
      split
      · exact ih _ _ _
      split
      · cases n with
        | zero => exact .throw _
        | succ n => exact ih _ _ _
      split
      · exact ih _ _ _
      · exact ih _ _ _
  unfold splitCommaList
  exact (key _ _ _ _).bind fun _ _ => .pure _

theorem parseParams_defined (lib : Libc) (s : Text) : Defined (parseParams lib s) := by
  unfold parseParams
  split
  · split
    · exact .throw _
    · exact (splitCommaList_defined _).bind fun parts _ => (Defined.mapM (fun s => angleFuel_suffices lib s) parts).bind fun _ _ => .pure _
  · exact .ok _

theorem parseIndexedRegister_defined (s : Text) (regs : Registers) : Defined (parseIndexedRegister s regs) := by
  unfold parseIndexedRegister
  split
  · exact .throw _
  split
  · exact .throw _
  split
  · exact .throw _
  split
  · exact .throw _
  · exact .ok _

theorem parseMeasureOperand_defined (s : Text) (regs : Registers) : Defined (parseMeasureOperand s regs) := by
  unfold parseMeasureOperand
  dsimp only
  split
  · exact (parseIndexedRegister_defined _ _).bind fun _ _ => .pure _
  · split
    · exact .throw _
    · exact .ok _

theorem parseGate_defined (lib : Libc) (r : Reader) (s : Text) : Defined (r.parseGate lib s) := by
  unfold Reader.parseGate
  dsimp only
  generalize (if r.sawVersion then r else { r with warnings := r.warnings ++ ["OPENQASM 2.0 header is missing"], sawVersion := true }) = r0
  split
  · exact .throw _
  · refine (parseParams_defined lib _).bind fun p _ => (splitCommaList_defined _).bind fun ops _ =>
      (Defined.mapM (fun s => parseIndexedRegister_defined s _) ops).bind fun qs _ => ?_
    split
    · exact .throw _
    · obtain ⟨h1, h2⟩ := gateNamed_defined (if lowerCase (s.takeWhile isWord) = t! "u" then t! "u3" else lowerCase (s.takeWhile isWord)) p.1 qs
      refine h1.bind fun o ho => ?_
      cases o with
      | none => exact .pure _
      | some d =>
        show Defined (r0.add d)
        unfold Reader.add
        exact (build_defined (h2 d ho)).bind fun g _ => .pure _

theorem parseMeasure_defined (r : Reader) (s : Text) : Defined (r.parseMeasure s) := by
  unfold Reader.parseMeasure
  dsimp only
  split
  · exact .throw _
  · refine (parseMeasureOperand_defined _ _).bind fun q _ => (parseMeasureOperand_defined _ _).bind fun c _ => ?_
    split
    · exact .throw _
    · exact .foldlM (fun r i => (mkMeas_defined _ _ _).bind fun g _ => .pure _) _ _

theorem handle_defined (lib : Libc) (r : Reader) (s : Text) : Defined (r.handle lib s) := by
  have hname : ∀ s kw, Defined (parseRegisterName s kw) := by
    intro s kw
    unfold parseRegisterName
    dsimp only
    split
    · exact .throw _
    · exact .ok _
  have hdecl : ∀ s kw, Defined (parseRegisterDecl s kw) := by
    intro s kw
    unfold parseRegisterDecl
    split
    · exact .throw _
    split
    · exact .throw _
    split
    · exact .throw _
    · exact .ok _
  unfold Reader.handle
  dsimp only
  split
  · exact .ok _
  split
  · split
    · exact .throw _
    · exact .ok _
  split
  · refine (hname _ _).bind fun name _ => ?_
    split
    · exact .throw _
    · exact (hdecl _ _).bind fun n _ => .pure _
  split
  · refine (hname _ _).bind fun name _ => ?_
    split
    · exact .throw _
    · exact (hdecl _ _).bind fun n _ => .pure _
  split
  · exact .ok _
  split
  · exact parseMeasure_defined r _
  split
  · exact .throw _
  · exact parseGate_defined lib r _

theorem loads_defined (lib : Libc) (text : Text) : Defined (loads lib text) := by
  unfold loads
  refine Defined.bind ?_ fun stmts _ => .foldlM (handle_defined lib) stmts _
  unfold splitStatements
  dsimp only
  split
  · exact .throw _
  split
  · exact .throw _
  split
  · exact .throw _
  · exact .ok _

end Verif.Proofs
