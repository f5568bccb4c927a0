import Verif.Model.Registers
import Verif.Proofs.Gate2

/-!
# Classical registers: memory and specification in step
-/

namespace Verif.Proofs
open Verif Verif.Model Verif.Spec

/-- the list shows `n` bits `f` -/
def IsBits (r : List Bool) (n : Nat) (f : Nat → Bool) : Prop := r.length = n ∧ ∀ i, i < n → r[i]? = some (f i)

/-- object and slot -/
def cellOf : RegLoc → Nat × Nat
  | .own k => (k, 0)
  | .slot k b => (k, b)

/-- an object of the memory shows the bits of an object of the specification -/
def RegObjRel (o : RegObj) (n c : Nat) (bits : Nat → Nat → Bool) : Prop :=
  match o with
  | .single r => c = 1 ∧ IsBits r n (bits 0)
  | .batch B => B.size = n ∧ B.regs.length = c ∧ ∀ b r, B.regs[b]? = some r → IsBits r n (bits b)

/-- the reference points into the memory -/
def RegLocOK (os : List RegObj) : RegLoc → Prop
  | .own k => ∃ r, os[k]? = some (.single r)
  | .slot k b => ∃ B, os[k]? = some (.batch B) ∧ b < B.regs.length

/-- batch or not, and how many registers -/
def regShape : RegObj → Option Nat
  | .single _ => none
  | .batch B => some B.regs.length

structure RegRel (h : RegHeap) (s : RegStore) : Prop where
  len : h.objs.length = s.objs
  obj : ∀ k o, h.objs[k]? = some o → RegObjRel o (s.size k) (s.count k) (s.bit k)
  reg : ∀ x, s.reg x = (h.reg x).map cellOf
  regv : ∀ x l, h.reg x = some l → RegLocOK h.objs l
  bat : ∀ X, s.bat X = h.bat X
  batv : ∀ X k, h.bat X = some k → ∃ B, h.objs[k]? = some (.batch B)

theorem isBits_replicate (n : Nat) : IsBits (newRegister n) n fun _ => false := by
  unfold newRegister
  refine ⟨List.length_replicate, fun i hi => ?_⟩
  rw [List.getElem?_replicate, if_pos hi]

theorem isBits_reset {r : List Bool} {n : Nat} {f : Nat → Bool} (h : IsBits r n f) : IsBits (resetRegister r) n fun _ => false := by
  unfold resetRegister
  refine ⟨by simpa using h.1, fun i hi => ?_⟩
  rw [List.getElem?_map, h.2 i hi]; rfl

theorem isBits_set {r : List Bool} {n : Nat} {f : Nat → Bool} (h : IsBits r n f) (i : Nat) (v : Bool) :
    if i < n then ∃ r', setRegister r i v = .ok r' ∧ IsBits r' n (Function.update f i v) else ∃ m, setRegister r i v = .error (.throw m) := by
  unfold setRegister
  split
  · rename_i hi
    rw [if_neg (by have := h.1; omega)]
    refine ⟨_, rfl, by simpa using h.1, fun j hj => ?_⟩
    rw [List.getElem?_set]
    by_cases hij : i = j
    · subst hij; simp [h.1, hj]
    · rw [if_neg hij, h.2 j hj, Function.update_of_ne (Ne.symm hij)]
  · rename_i hi
    rw [if_pos (by have := h.1; omega)]
    exact ⟨_, rfl⟩

theorem isBits_read {r : List Bool} {n : Nat} {f : Nat → Bool} (h : IsBits r n f) (i : Nat) :
    if i < n then readRegister r i = .ok (f i) else ∃ m, readRegister r i = .error (.throw m) := by
  unfold readRegister
  split
  · rename_i hi; rw [h.2 i hi]
  · rename_i hi
    rw [List.getElem?_eq_none (by have := h.1; omega)]
    exact ⟨_, rfl⟩

theorem locOK_shape {os os' : List RegObj} (hs : ∀ (k : Nat) (o : RegObj), os[k]? = some o → ∃ o', os'[k]? = some o' ∧ regShape o' = regShape o)
    {l : RegLoc} (h : RegLocOK os l) : RegLocOK os' l := by
  cases l with
  | own k =>
    obtain ⟨r, hr⟩ := h
    obtain ⟨o', h1, h2⟩ := hs k _ hr
    cases o' with
    | single r' => exact ⟨r', h1⟩
    | batch B => cases h2
  | slot k b =>
    obtain ⟨B, hB, hb⟩ := h
    obtain ⟨o', h1, h2⟩ := hs k _ hB
    cases o' with
    | single r' => cases h2
    | batch B' => exact ⟨B', h1, by simp only [regShape, Option.some.injEq] at h2; omega⟩

theorem shape_append (os : List RegObj) (o : RegObj) :
    ∀ (k : Nat) (o' : RegObj), os[k]? = some o' → ∃ o'', (os ++ [o])[k]? = some o'' ∧ regShape o'' = regShape o' := by
  intro k o' h
  have hk : k < os.length := (List.getElem?_eq_some_iff.1 h).1
  exact ⟨o', by rw [List.getElem?_append_left hk, h], rfl⟩

theorem shape_set (os : List RegObj) {k : Nat} {o o1 : RegObj} (h : os[k]? = some o) (hs : regShape o1 = regShape o) :
    ∀ (j : Nat) (o' : RegObj), os[j]? = some o' → ∃ o'', (os.set k o1)[j]? = some o'' ∧ regShape o'' = regShape o' := by
  intro j o' hj
  have hk : k < os.length := (List.getElem?_eq_some_iff.1 h).1
  rw [List.getElem?_set]
  by_cases hkj : k = j
  · subst hkj
    rw [h] at hj; cases hj
    exact ⟨o1, by simp [hk], hs⟩
  · exact ⟨o', by rw [if_neg hkj, hj], rfl⟩

/-- one more object -/
theorem rel_append {h : RegHeap} {s : RegStore} (H : RegRel h s) {o : RegObj} {n B : Nat} {bits : Nat → Nat → Bool}
    (ho : RegObjRel o n B bits) : RegRel { h with objs := h.objs ++ [o] } (s.fresh n B bits) := by
  refine ⟨by simp [RegStore.fresh, H.len], fun k o' hk => ?_, H.reg, fun x l hl => locOK_shape (shape_append _ o) (H.regv x l hl), H.bat, fun X k hX => ?_⟩
  · dsimp only [RegStore.fresh] at hk ⊢
    by_cases hk1 : k < h.objs.length
    · rw [List.getElem?_append_left hk1] at hk
      have hne : k ≠ s.objs := by have := H.len; omega
      rw [Function.update_of_ne hne, Function.update_of_ne hne, Function.update_of_ne hne]
      exact H.obj k o' hk
    · rw [List.getElem?_append_right (by omega)] at hk
      have hk2 : k = s.objs := by
        have := H.len
        have h3 := (List.getElem?_eq_some_iff.1 hk).1
        simp only [List.length_singleton] at h3
        omega
      subst hk2
      rw [H.len, Nat.sub_self] at hk
      simp only [List.getElem?_cons_zero, Option.some.injEq] at hk
      subst hk
      simpa using ho
  · obtain ⟨B', hB'⟩ := H.batv X k hX
    obtain ⟨o'', h1, h2⟩ := shape_append h.objs o k _ hB'
    cases o'' with
    | single r' => cases h2
    | batch B'' => exact ⟨B'', h1⟩

/-- another value for an object of the same shape -/
theorem rel_set {h : RegHeap} {s : RegStore} (H : RegRel h s) {k : Nat} {o o1 : RegObj} {bits : Nat → Nat → Bool} (hk : h.objs[k]? = some o)
    (hs : regShape o1 = regShape o) (ho : RegObjRel o1 (s.size k) (s.count k) bits) :
    RegRel { h with objs := h.objs.set k o1 } { s with bit := Function.update s.bit k bits } := by
  have hkl : k < h.objs.length := (List.getElem?_eq_some_iff.1 hk).1
  refine ⟨by simpa using H.len, fun j o' hj => ?_, H.reg, fun x l hl => locOK_shape (shape_set _ hk hs) (H.regv x l hl), H.bat, fun X j hX => ?_⟩
  · dsimp only at hj ⊢
    rw [List.getElem?_set] at hj
    by_cases hkj : k = j
    · subst hkj
      simp only [if_pos, hkl, Option.some.injEq] at hj
      subst hj
      simpa using ho
    · rw [if_neg hkj] at hj
      rw [Function.update_of_ne (Ne.symm hkj)]
      exact H.obj j o' hj
  · obtain ⟨B', hB'⟩ := H.batv X j hX
    obtain ⟨o'', h1, h2⟩ := shape_set h.objs hk hs j _ hB'
    cases o'' with
    | single r' => cases h2
    | batch B'' => exact ⟨B'', h1⟩

theorem rel_load {h : RegHeap} {s : RegStore} (H : RegRel h s) {l : RegLoc} (hl : RegLocOK h.objs l) :
    ∃ r, h.load l = .ok r ∧ IsBits r (s.size (cellOf l).1) (s.bit (cellOf l).1 (cellOf l).2) := by
  cases l with
  | own k =>
    obtain ⟨r, hr⟩ := hl
    exact ⟨r, by unfold RegHeap.load; simp only [hr], (H.obj k _ hr).2⟩
  | slot k b =>
    obtain ⟨B, hB, hb⟩ := hl
    have h1 : B.regs[b]? = some B.regs[b] := List.getElem?_eq_getElem hb
    exact ⟨B.regs[b], by unfold RegHeap.load; simp only [hB, h1], (H.obj k _ hB).2.2 b _ h1⟩

theorem rel_store {h : RegHeap} {s : RegStore} (H : RegRel h s) {l : RegLoc} (hl : RegLocOK h.objs l) {r : List Bool} {bits : Nat → Bool}
    (hr : IsBits r (s.size (cellOf l).1) bits) : ∃ h', h.store l r = .ok h' ∧ RegRel h' (s.write (cellOf l).1 (cellOf l).2 bits) := by
  cases l with
  | own k =>
    obtain ⟨r0, hr0⟩ := hl
    refine ⟨{ h with objs := h.objs.set k (.single r) }, by unfold RegHeap.store; simp only [hr0],
      rel_set (k := k) (o1 := .single r) H hr0 rfl ⟨(H.obj k _ hr0).1, ?_⟩⟩
    simpa [cellOf] using hr
  | slot k b =>
    obtain ⟨B, hB, hb⟩ := hl
    obtain ⟨h1, h2, h3⟩ := H.obj k _ hB
    refine ⟨{ h with objs := h.objs.set k (.batch { B with regs := B.regs.set b r }) }, by unfold RegHeap.store; simp only [hB],
      rel_set (k := k) (o1 := .batch { B with regs := B.regs.set b r }) H hB (by simp [regShape]) ⟨h1, by simpa using h2, fun j r' hj => ?_⟩⟩
    dsimp only at hj
    dsimp only [cellOf]
    rw [List.getElem?_set] at hj
    by_cases hbj : b = j
    · subst hbj
      simp only [if_pos, hb, Option.some.injEq] at hj
      subst hj
      simpa [cellOf] using hr
    · rw [if_neg hbj] at hj
      rw [Function.update_of_ne (Ne.symm hbj)]
      exact h3 j r' hj

theorem rel_name {h : RegHeap} {s : RegStore} (H : RegRel h s) (x : String) {l : RegLoc} (hl : RegLocOK h.objs l) :
    RegRel { h with reg := Function.update h.reg x (some l) } { s with reg := Function.update s.reg x (some (cellOf l)) } := by
  refine ⟨H.len, H.obj, fun y => ?_, fun y l' hy => ?_, H.bat, H.batv⟩
  · by_cases hyx : y = x
    · subst hyx; simp
    · simp only [Function.update_of_ne hyx]; exact H.reg y
  · by_cases hyx : y = x
    · subst hyx
      simp only [Function.update_self, Option.some.injEq] at hy
      subst hy; exact hl
    · simp only [Function.update_of_ne hyx] at hy; exact H.regv y l' hy

theorem rel_nameB {h : RegHeap} {s : RegStore} (H : RegRel h s) (X : String) {k : Nat} {B : BReg} (hk : h.objs[k]? = some (.batch B)) :
    RegRel { h with bat := Function.update h.bat X (some k) } { s with bat := Function.update s.bat X (some k) } := by
  refine ⟨H.len, H.obj, H.reg, H.regv, fun Y => ?_, fun Y k' hY => ?_⟩
  · by_cases hYX : Y = X
    · subst hYX; simp
    · simp only [Function.update_of_ne hYX]; exact H.bat Y
  · by_cases hYX : Y = X
    · subst hYX
      simp only [Function.update_self, Option.some.injEq] at hY
      subst hY; exact ⟨B, hk⟩
    · simp only [Function.update_of_ne hYX] at hY; exact H.batv Y k' hY

/-- a name of the specification is a reference of the memory -/
theorem rel_loc {h : RegHeap} {s : RegStore} (H : RegRel h s) {x : String} {c : Nat × Nat} (hx : s.reg x = some c) :
    ∃ l, h.loc x = .ok l ∧ cellOf l = c ∧ RegLocOK h.objs l := by
  rw [H.reg x, Option.map_eq_some_iff] at hx
  obtain ⟨l, hl, hc⟩ := hx
  exact ⟨l, by unfold RegHeap.loc; rw [hl], hc, H.regv x l hl⟩

theorem rel_batch {h : RegHeap} {s : RegStore} (H : RegRel h s) {X : String} {k : Nat} (hX : s.bat X = some k) :
    ∃ B, h.batch X = .ok (k, B) ∧ h.objs[k]? = some (.batch B) := by
  rw [H.bat X] at hX
  obtain ⟨B, hB⟩ := H.batv X k hX
  exact ⟨B, by unfold RegHeap.batch; simp only [hX, hB], hB⟩

theorem batch_at {B : BReg} {n c : Nat} {bits : Nat → Nat → Bool} (h : RegObjRel (.batch B) n c bits) (b : Nat) :
    if b < c then ∃ r, B.at b = .ok r ∧ IsBits r n (bits b) else ∃ m, B.at b = .error (.throw m) := by
  obtain ⟨-, h2, h3⟩ := h
  unfold BReg.at
  split
  · rename_i hb
    have h1 : B.regs[b]? = some (B.regs[b]'(by omega)) := List.getElem?_eq_getElem (by omega)
    exact ⟨_, by rw [h1], h3 b _ h1⟩
  · rename_i hb
    rw [List.getElem?_eq_none (by omega)]
    exact ⟨_, rfl⟩

theorem rel_slot {h : RegHeap} {s : RegStore} (H : RegRel h s) {k b : Nat} {B : BReg} (hk : h.objs[k]? = some (.batch B)) (hb : b < s.count k) :
    RegLocOK h.objs (.slot k b) := ⟨B, hk, by have := (H.obj k _ hk).2.1; omega⟩

theorem reg_step {h : RegHeap} {s : RegStore} (H : RegRel h s) (c : RegCmd) :
    match s.step c with
    | .done s' => ∃ h', h.step c = .ok h' ∧ RegRel h' s'
    | .refused => ∃ m, h.step c = .error (.throw m)
    | .unspecified => True := by
  cases c with
  | new x n =>
    have h1 := rel_append H (o := .single (newRegister n)) (n := n) (B := 1) (bits := fun _ _ => false) ⟨rfl, isBits_replicate n⟩
    have h2 := rel_name h1 x (l := .own h.objs.length) ⟨newRegister n, by simp⟩
    refine ⟨_, rfl, ?_⟩
    simpa [cellOf, H.len, RegStore.fresh] using h2
  | newB X n B =>
    have h1 := rel_append H (o := .batch (BReg.new n B)) (n := n) (B := B) (bits := fun _ _ => false)
      ⟨rfl, by simp [BReg.new], fun b r hr => by
        unfold BReg.new at hr
        obtain ⟨-, rfl⟩ := List.getElem?_eq_some_iff.1 hr
        simpa using isBits_replicate n⟩
    have h2 := rel_nameB h1 X (k := h.objs.length) (B := BReg.new n B) (by simp)
    refine ⟨_, rfl, ?_⟩
    simpa [H.len, RegStore.fresh] using h2
  | same x y =>
    dsimp only [RegStore.step]
    cases hy : s.reg y with
    | none => trivial
    | some c =>
      obtain ⟨l, h1, rfl, h3⟩ := rel_loc H hy
      refine ⟨_, by unfold RegHeap.step; dsimp only; rw [h1]; rfl, rel_name H x h3⟩
  | sameB X Y =>
    dsimp only [RegStore.step]
    cases hY : s.bat Y with
    | none => trivial
    | some k =>
      obtain ⟨B, h1, h2⟩ := rel_batch H hY
      refine ⟨_, by unfold RegHeap.step; dsimp only; rw [h1]; rfl, rel_nameB H X h2⟩
  | copy x y =>
    dsimp only [RegStore.step]
    cases hy : s.reg y with
    | none => trivial
    | some c =>
      obtain ⟨l, h1, rfl, h3⟩ := rel_loc H hy
      obtain ⟨r, h4, h5⟩ := rel_load H h3
      have h6 := rel_append H (o := .single r) (n := s.size (cellOf l).1) (B := 1) (bits := fun _ => s.bit (cellOf l).1 (cellOf l).2) ⟨rfl, h5⟩
      have h7 := rel_name h6 x (l := .own h.objs.length) ⟨r, by simp⟩
      refine ⟨_, by unfold RegHeap.step; dsimp only; rw [h1, ok_bind, h4]; rfl, ?_⟩
      simpa [cellOf, H.len, RegStore.fresh] using h7
  | copyB X Y =>
    dsimp only [RegStore.step]
    cases hY : s.bat Y with
    | none => trivial
    | some k =>
      obtain ⟨B, h1, h2⟩ := rel_batch H hY
      have h6 := rel_append H (H.obj k _ h2)
      have h7 := rel_nameB h6 X (k := h.objs.length) (B := B) (by simp)
      refine ⟨_, by unfold RegHeap.step; dsimp only; rw [h1]; rfl, ?_⟩
      simpa [H.len, RegStore.fresh] using h7
  | ref x X b =>
    dsimp only [RegStore.step]
    cases hX : s.bat X with
    | none => trivial
    | some k =>
      obtain ⟨B, h1, h2⟩ := rel_batch H hX
      have h3 := batch_at (H.obj k _ h2) b
      dsimp only
      split at h3
      · rename_i hb
        obtain ⟨r, h4, -⟩ := h3
        rw [if_pos hb]
        exact ⟨_, by unfold RegHeap.step; dsimp only; rw [h1, ok_bind]; dsimp only; rw [h4]; rfl, rel_name H x (rel_slot H h2 hb)⟩
      · rename_i hb
        obtain ⟨m, h4⟩ := h3
        rw [if_neg hb]
        exact ⟨m, by unfold RegHeap.step; dsimp only; rw [h1, ok_bind]; dsimp only; rw [h4]; rfl⟩
  | set x i v =>
    dsimp only [RegStore.step]
    cases hx : s.reg x with
    | none => trivial
    | some c =>
      obtain ⟨l, h1, rfl, h3⟩ := rel_loc H hx
      obtain ⟨r, h4, h5⟩ := rel_load H h3
      have h6 := isBits_set h5 i v
      dsimp only
      split at h6
      · rename_i hi
        obtain ⟨r', h7, h8⟩ := h6
        obtain ⟨h', h9, h10⟩ := rel_store H h3 h8
        rw [if_pos hi]
        exact ⟨h', by unfold RegHeap.step; dsimp only; rw [h1, ok_bind, h4, ok_bind, h7, ok_bind, h9], h10⟩
      · rename_i hi
        obtain ⟨m, h7⟩ := h6
        rw [if_neg hi]
        exact ⟨m, by unfold RegHeap.step; dsimp only; rw [h1, ok_bind, h4, ok_bind, h7]; rfl⟩
  | reset x =>
    dsimp only [RegStore.step]
    cases hx : s.reg x with
    | none => trivial
    | some c =>
      obtain ⟨l, h1, rfl, h3⟩ := rel_loc H hx
      obtain ⟨r, h4, h5⟩ := rel_load H h3
      obtain ⟨h', h9, h10⟩ := rel_store H h3 (isBits_reset h5)
      exact ⟨h', by unfold RegHeap.step; dsimp only; rw [h1, ok_bind, h4, ok_bind, h9], h10⟩
  | setB X b i v =>
    dsimp only [RegStore.step]
    cases hX : s.bat X with
    | none => trivial
    | some k =>
      obtain ⟨B, h1, h2⟩ := rel_batch H hX
      have h3 := batch_at (H.obj k _ h2) b
      dsimp only
      split at h3
      · rename_i hb
        obtain ⟨r, h4, h5⟩ := h3
        have h6 := isBits_set h5 i v
        split at h6
        · rename_i hi
          obtain ⟨r', h7, h8⟩ := h6
          obtain ⟨h', h9, h10⟩ := rel_store H (rel_slot H h2 hb) h8
          rw [if_pos ⟨hb, hi⟩]
          exact ⟨h', by unfold RegHeap.step; dsimp only; rw [h1, ok_bind]; dsimp only; rw [h4, ok_bind, h7, ok_bind, h9], h10⟩
        · rename_i hi
          obtain ⟨m, h7⟩ := h6
          rw [if_neg fun h => hi h.2]
          exact ⟨m, by unfold RegHeap.step; dsimp only; rw [h1, ok_bind]; dsimp only; rw [h4, ok_bind, h7]; rfl⟩
      · rename_i hb
        obtain ⟨m, h4⟩ := h3
        rw [if_neg fun h => hb h.1]
        exact ⟨m, by unfold RegHeap.step; dsimp only; rw [h1, ok_bind]; dsimp only; rw [h4]; rfl⟩
  | resetB X =>
    dsimp only [RegStore.step]
    cases hX : s.bat X with
    | none => trivial
    | some k =>
      obtain ⟨B, h1, h2⟩ := rel_batch H hX
      obtain ⟨h3, h4, h5⟩ := H.obj k _ h2
      refine ⟨_, by unfold RegHeap.step; dsimp only; rw [h1]; rfl, rel_set (o1 := .batch B.reset) H h2 (by simp [regShape, BReg.reset]) ⟨h3, by simpa [BReg.reset] using h4, fun b r hr => ?_⟩⟩
      simp only [BReg.reset, List.getElem?_map, Option.map_eq_some_iff] at hr
      obtain ⟨r0, h6, rfl⟩ := hr
      exact isBits_reset (h5 b r0 h6)
  | assign X b y =>
    dsimp only [RegStore.step]
    cases hX : s.bat X with
    | none => trivial
    | some k =>
      cases hy : s.reg y with
      | none => trivial
      | some c =>
        obtain ⟨B, h1, h2⟩ := rel_batch H hX
        obtain ⟨l, h3, rfl, h4⟩ := rel_loc H hy
        obtain ⟨r, h5, h6⟩ := rel_load H h4
        have h7 := batch_at (H.obj k _ h2) b
        have hn : B.size = s.size k := (H.obj k _ h2).1
        dsimp only
        by_cases hs : s.size (cellOf l).1 = s.size k
        · have hne : ¬ r.length ≠ B.size := by rw [h6.1, hn]; simpa using hs
          split at h7
          · rename_i hb
            obtain ⟨r', h8, -⟩ := h7
            obtain ⟨h', h9, h10⟩ := rel_store H (rel_slot H h2 hb) (hs ▸ h6)
            rw [if_pos ⟨hs, hb⟩]
            refine ⟨h', ?_, h10⟩
            unfold RegHeap.step; dsimp only
            rw [h3, ok_bind, h5, ok_bind, h1, ok_bind]; dsimp only
            rw [if_neg hne]
            unfold RegHeap.assignSlot
            rw [h1, ok_bind]; dsimp only
            rw [h8, ok_bind, h9]
          · rename_i hb
            obtain ⟨m, h8⟩ := h7
            rw [if_neg fun h => hb h.2]
            refine ⟨m, ?_⟩
            unfold RegHeap.step; dsimp only
            rw [h3, ok_bind, h5, ok_bind, h1, ok_bind]; dsimp only
            rw [if_neg hne]
            unfold RegHeap.assignSlot
            rw [h1, ok_bind]; dsimp only
            rw [h8]; rfl
        · rw [if_neg fun h => hs h.1]
          refine ⟨"__setitem__ expects a ClassicalRegister with matching register_size", ?_⟩
          unfold RegHeap.step; dsimp only
          rw [h3, ok_bind, h5, ok_bind, h1, ok_bind]; dsimp only
          rw [if_pos (by rw [h6.1, hn]; exact hs)]

theorem reg_run {P : List RegCmd} : ∀ {h : RegHeap} {s s' : RegStore}, RegRel h s → s.run P = some s' → ∃ h', h.run P = .ok h' ∧ RegRel h' s' := by
  induction P with
  | nil => intro h s s' H hs; cases hs; exact ⟨h, rfl, H⟩
  | cons c cs ih =>
    intro h s s' H hs
    have h1 := reg_step H c
    unfold RegStore.run at hs
    unfold RegHeap.run
    cases hc : s.step c with
    | done s1 =>
      rw [hc] at h1 hs
      obtain ⟨h', h2, h3⟩ := h1
      rw [h2]
      exact ih h3 hs
    | refused =>
      rw [hc] at h1 hs
      obtain ⟨m, h2⟩ := h1
      rw [h2]
      exact ih H hs
    | unspecified => rw [hc] at hs; cases hs

theorem reg_empty : RegRel RegHeap.empty RegStore.empty :=
  ⟨rfl, fun k o h => (by simp [RegHeap.empty] at h), fun _ => rfl, fun x l h => (by cases h), fun _ => rfl, fun X k h => (by cases h)⟩

end Verif.Proofs
