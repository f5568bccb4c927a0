import Verif.Core.Kernel
import Verif.Spec.State
import Mathlib.Data.List.Sort

/-!
# Qubit lists and masks

Model of /repo/include/scaluq/util/utility.hpp:46-106 and of the operand validation of gates.
Elements of `std::vector<std::uint64_t>` are modelled by `Nat`.
-/

namespace Verif.Model
open Verif Verif.Spec
attribute [-simp] BitVec.getLsbD_eq_getElem

/-- How a call can fail: a C++ exception, or undefined behaviour. -/
inductive Fault where
  | throw (msg : String)
  | ub (what : String)
deriving DecidableEq, Repr

/-- result of a C++ call -/
abbrev Res := Except Fault

/-- `1ULL << x`; a shift by 64 or more is undefined behaviour. -/
def shl1 (x : Nat) : Res U64 :=
  if x < 64 then .ok (1#64 <<< x) else .error (.ub "shift by >= 64")

/-- /repo/include/scaluq/util/utility.hpp:50-61, loop body of the validated `vector_to_mask(indices)`. -/
def vectorToMaskStep (mask : U64) (x : Nat) : Res U64 :=
  if x ≥ 64 then .error (.throw "The size of the qubit system must be less than 64.")
  else if (mask >>> x) &&& 1#64 ≠ 0 then .error (.throw "The specified qubit is duplicated.")
  else do
    let b ← shl1 x
    pure (mask ||| b)

/-- /repo/include/scaluq/util/utility.hpp:47-63 `vector_to_mask<true>(indices)`. -/
def vectorToMask (indices : List Nat) : Res U64 := indices.foldlM vectorToMaskStep 0

/-- /repo/include/scaluq/util/utility.hpp:66-78 `vector_to_mask(indices, values)`; reading `values[i]` past its
end is undefined behaviour. -/
def vectorToMask2 : List Nat → List Nat → U64 → Res U64
  | [], _, mask => .ok mask
  | _ :: _, [], _ => .error (.ub "values[i] out of range")
  | i :: is, v :: vs, mask =>
    if v = 1 then do
      let b ← shl1 i
      vectorToMask2 is vs (mask ||| b)
    else if v ≠ 0 then .error (.throw "Invalid value in vector_to_mask")
    else vectorToMask2 is vs mask

/-- /repo/include/scaluq/util/utility.hpp:98-106 `resize_and_check_control_values`. -/
def resizeAndCheckControlValues (controls values : List Nat) : Res (List Nat) :=
  let values := if values.isEmpty then List.replicate controls.length 1 else values
  if controls.length ≠ values.length then
    .error (.throw "The size of controls and control_values must be the same.")
  else .ok values

/-- `std::countr_zero(m)` (C++20 <bit>): position of the lowest set bit, 64 if there is none. -/
def ctz (m : U64) : Nat := (List.range 64).findIdx (fun i => m.getLsbD i)

/-- /repo/include/scaluq/util/utility.hpp:81-87 `mask_to_vector(mask)`, the loop. -/
def maskToVector (m : U64) : List Nat :=
  if h : m = 0 then []
  else ctz m :: maskToVector (m &&& (m - 1))
termination_by m.toNat
decreasing_by
  have h1 : (m &&& (m - 1)).toNat ≤ (m - 1).toNat := by
    rw [BitVec.toNat_and]; exact Nat.and_le_right
  have h2 : (m - 1).toNat < m.toNat := by
    have : m.toNat ≠ 0 := fun e => h (BitVec.eq_of_toNat_eq (by simpa using e))
    rw [BitVec.toNat_sub]
    have := m.isLt
    simp
    omega
  omega

/-- /repo/include/scaluq/util/utility.hpp:90-96 `mask_to_vector(indices_mask, mask)`: the loop runs over the set
bits of `indices_mask` in the same order as `mask_to_vector(indices_mask)`; each pushes `(mask >> i) & 1`. -/
def maskToVector2 (im m : U64) : List Nat :=
  (maskToVector im).map (fun i => ((m >>> i) &&& 1#64).toNat)

/-- The operand masks stored in a gate (`_target_mask`, `_control_mask`, `_control_value_mask`,
/repo/include/scaluq/gate/gate.hpp:253). -/
structure Operands where
  t : U64
  c : U64
  v : U64

/-- /repo/src/gate/gate.cpp:122-133 `GateBase` constructor. -/
def gateBase (t c v : U64) : Res Operands :=
  if t &&& c ≠ 0 then .error (.throw "Target and control qubits must not overlap.")
  else .ok ⟨t, c, v⟩

/-- Operand handling shared by the gate factories, e.g. /repo/include/scaluq/gate/gate_factory.hpp:37-45
(`X(target, controls, control_values)`) with `targets = {target}` and :290-299 (`Swap`) with two targets.
The three `vector_to_mask` calls are function arguments, which C++ may evaluate in any order; they are evaluated
here from left to right. -/
def mkOperands (targets controls values : List Nat) : Res Operands := do
  let values ← resizeAndCheckControlValues controls values
  let t ← vectorToMask targets
  let c ← vectorToMask controls
  let v ← vectorToMask2 controls values 0
  gateBase t c v

/-- /repo/src/gate/gate.cpp:5-24 `check_qubit_mask_within_bounds` for a state of `n` qubits. -/
def checkWithinBounds (o : Operands) (n : Nat) : Res Unit := do
  let one ← shl1 n
  let full := one - 1
  if full.toNat < (o.t ||| o.c).toNat then
    .error (.throw "Target/Control qubit exceeds the number of qubits in the system.")
  else pure ()

/-! ## Facts -/

theorem getLsbD_one_shl {x : Nat} (hx : x < 64) (i : Nat) : (1#64 <<< x).getLsbD i = decide (i = x) := by
  rw [BitVec.getLsbD_shiftLeft]
  by_cases h : i = x
  · subst h; simp [hx, BitVec.getLsbD_one]
  · rw [BitVec.getLsbD_one]
    by_cases h2 : i < x
    · simp [h, h2]
    · have : i - x ≠ 0 := by omega
      simp [h, this]

theorem shr_and_one (mask : U64) (x : Nat) :
    ((mask >>> x) &&& 1#64 ≠ 0) ↔ mask.getLsbD x = true := by
  constructor
  · intro h
    by_contra hn
    apply h
    apply U64.ext
    intro i hi
    rw [BitVec.getLsbD_and, BitVec.getLsbD_ushiftRight, BitVec.getLsbD_one]
    by_cases h0 : i = 0
    · subst h0; simp at hn; simp [hn]
    · simp [h0]
  · intro h hz
    have := congrArg (fun y => BitVec.getLsbD y 0) hz
    simp [BitVec.getLsbD_and, BitVec.getLsbD_one, h] at this

theorem shr_and_one_toNat (mask : U64) (x : Nat) :
    ((mask >>> x) &&& 1#64).toNat = (mask.getLsbD x).toNat := by
  rw [BitVec.toNat_and, BitVec.toNat_ushiftRight]
  have : (1#64).toNat = 1 := rfl
  rw [this, Nat.and_one_is_mod, Nat.shiftRight_eq_div_pow, ← BitVec.testBit_toNat, Nat.toNat_testBit]

theorem foldl_vectorToMask (l : List Nat) (m0 m : U64) (h : l.foldlM vectorToMaskStep m0 = .ok m) :
    (∀ x ∈ l, x < 64) ∧ l.Nodup ∧ (∀ x ∈ l, m0.getLsbD x = false) ∧
    (∀ i, m.getLsbD i = (m0.getLsbD i || decide (i ∈ l))) := by
  induction l generalizing m0 with
  | nil =>
    simp only [List.foldlM_nil, pure, Except.pure, Except.ok.injEq] at h
    subst h; simp
  | cons x xs ih =>
    simp only [List.foldlM_cons] at h
    unfold vectorToMaskStep at h
    by_cases hx : x ≥ 64
    · simp [hx, bind, Except.bind] at h
    · rw [if_neg hx] at h
      by_cases hd : (m0 >>> x) &&& 1#64 ≠ 0
      · rw [if_pos hd] at h; cases h
      · rw [if_neg hd] at h
        have hx' : x < 64 := by omega
        simp only [shl1, hx', if_true, bind, Except.bind, pure, Except.pure] at h
        obtain ⟨h1, h2, h3, h4⟩ := ih _ h
        have hm0x : m0.getLsbD x = false := by
          have := (shr_and_one m0 x).not.1 hd
          simpa using this
        have hbit : ∀ i, (m0 ||| 1#64 <<< x).getLsbD i = (m0.getLsbD i || decide (i = x)) := by
          intro i; rw [BitVec.getLsbD_or, getLsbD_one_shl hx']
        refine ⟨?_, ?_, ?_, ?_⟩
        · intro y hy
          rcases List.mem_cons.1 hy with rfl | hy
          · exact hx'
          · exact h1 y hy
        · rw [List.nodup_cons]
          refine ⟨?_, h2⟩
          intro hxs
          have := h3 x hxs
          rw [hbit] at this; simp at this
        · intro y hy
          rcases List.mem_cons.1 hy with rfl | hy
          · exact hm0x
          · have := h3 y hy
            rw [hbit] at this
            simp at this; exact this.1
        · intro i
          rw [h4 i, hbit i]
          simp only [List.mem_cons]
          by_cases hix : i = x <;> simp [hix]

theorem foldl_vectorToMask_ok (l : List Nat) (m0 : U64) (h1 : ∀ x ∈ l, x < 64) (h2 : l.Nodup)
    (h3 : ∀ x ∈ l, m0.getLsbD x = false) : ∃ m, l.foldlM vectorToMaskStep m0 = .ok m := by
  induction l generalizing m0 with
  | nil => exact ⟨m0, rfl⟩
  | cons x xs ih =>
    have hx' : x < 64 := h1 x (by simp)
    have hx : ¬ x ≥ 64 := by omega
    have hd : ¬ ((m0 >>> x) &&& 1#64 ≠ 0) := by
      rw [shr_and_one m0 x, h3 x (by simp)]; simp
    simp only [List.foldlM_cons]
    unfold vectorToMaskStep
    rw [if_neg hx, if_neg hd]
    simp only [shl1, hx', if_true, bind, Except.bind, pure, Except.pure]
    apply ih
    · intro y hy; exact h1 y (by simp [hy])
    · exact (List.nodup_cons.1 h2).2
    · intro y hy
      rw [BitVec.getLsbD_or, getLsbD_one_shl hx', h3 y (by simp [hy])]
      have : y ≠ x := by rintro rfl; exact (List.nodup_cons.1 h2).1 hy
      simp [this]

theorem foldl_vectorToMask_err (l : List Nat) (m0 : U64) (e : Fault)
    (h : l.foldlM vectorToMaskStep m0 = .error e) : ∃ msg, e = .throw msg := by
  induction l generalizing m0 with
  | nil => simp [pure, Except.pure] at h
  | cons x xs ih =>
    simp only [List.foldlM_cons] at h
    unfold vectorToMaskStep at h
    by_cases hx : x ≥ 64
    · simp [hx, bind, Except.bind] at h; exact ⟨_, h.symm⟩
    · rw [if_neg hx] at h
      by_cases hd : (m0 >>> x) &&& 1#64 ≠ 0
      · rw [if_pos hd] at h; injection h with h; exact ⟨_, h.symm⟩
      · rw [if_neg hd] at h
        have hx' : x < 64 := by omega
        simp only [shl1, hx', if_true, bind, Except.bind, pure, Except.pure] at h
        exact ih _ h

/-- `vector_to_mask` succeeds exactly on duplicate-free lists of qubits below 64 -/
theorem vectorToMask_ok_iff (l : List Nat) :
    (∃ m, vectorToMask l = .ok m) ↔ l.Nodup ∧ ∀ x ∈ l, x < 64 := by
  constructor
  · rintro ⟨m, h⟩
    obtain ⟨h1, h2, -, -⟩ := foldl_vectorToMask l 0 m h
    exact ⟨h2, h1⟩
  · rintro ⟨h2, h1⟩
    exact foldl_vectorToMask_ok l 0 h1 h2 (by simp)

/-- the mask built from a list has exactly the listed bits -/
theorem getLsbD_vectorToMask {l : List Nat} {m : U64} (h : vectorToMask l = .ok m) (i : Nat) :
    m.getLsbD i = decide (i ∈ l) := by
  obtain ⟨-, -, -, h4⟩ := foldl_vectorToMask l 0 m h
  rw [h4 i]; simp

theorem vectorToMask2_ok (is vs : List Nat) (m0 m : U64) (hlt : ∀ x ∈ is, x < 64)
    (h : vectorToMask2 is vs m0 = .ok m) :
    (∀ p ∈ is.zip vs, p.2 = 0 ∨ p.2 = 1) ∧ is.length ≤ vs.length ∧
    (∀ i, m.getLsbD i = (m0.getLsbD i || decide ((i, 1) ∈ is.zip vs))) := by
  induction is generalizing vs m0 with
  | nil => simp [vectorToMask2] at h; subst h; simp
  | cons x xs ih =>
    cases vs with
    | nil => simp [vectorToMask2] at h
    | cons v vs =>
      have hx : x < 64 := hlt x (by simp)
      have hxs : ∀ y ∈ xs, y < 64 := fun y hy => hlt y (by simp [hy])
      unfold vectorToMask2 at h
      by_cases hv1 : v = 1
      · subst hv1
        simp only [if_true, shl1, hx, bind, Except.bind] at h
        obtain ⟨h1, h2, h3⟩ := ih vs _ hxs h
        refine ⟨?_, by simpa using h2, ?_⟩
        · intro p hp
          simp only [List.zip_cons_cons, List.mem_cons] at hp
          rcases hp with rfl | hp
          · exact .inr rfl
          · exact h1 p hp
        · intro i
          rw [h3 i, BitVec.getLsbD_or, getLsbD_one_shl hx]
          simp only [List.zip_cons_cons, List.mem_cons, Prod.mk.injEq, and_true]
          by_cases hix : i = x <;> simp [hix]
      · rw [if_neg hv1] at h
        by_cases hv0 : v = 0
        · subst hv0
          simp only [ne_eq, not_true_eq_false, if_false] at h
          obtain ⟨h1, h2, h3⟩ := ih vs _ hxs h
          refine ⟨?_, by simpa using h2, ?_⟩
          · intro p hp
            simp only [List.zip_cons_cons, List.mem_cons] at hp
            rcases hp with rfl | hp
            · exact .inl rfl
            · exact h1 p hp
          · intro i
            rw [h3 i]
            simp only [List.zip_cons_cons, List.mem_cons, Prod.mk.injEq]
            simp
        · rw [if_pos hv0] at h
          cases h

theorem vectorToMask2_complete (is vs : List Nat) (m0 : U64) (hlt : ∀ x ∈ is, x < 64)
    (hlen : is.length = vs.length) (hv : ∀ v ∈ vs, v = 0 ∨ v = 1) :
    ∃ m, vectorToMask2 is vs m0 = .ok m := by
  induction is generalizing vs m0 with
  | nil => exact ⟨m0, rfl⟩
  | cons x xs ih =>
    cases vs with
    | nil => simp at hlen
    | cons v vs =>
      have hx : x < 64 := hlt x (by simp)
      have hxs : ∀ y ∈ xs, y < 64 := fun y hy => hlt y (by simp [hy])
      have hl : xs.length = vs.length := by simpa using hlen
      have hvs : ∀ w ∈ vs, w = 0 ∨ w = 1 := fun w hw => hv w (by simp [hw])
      unfold vectorToMask2
      rcases hv v (by simp) with rfl | rfl
      · simpa using ih vs m0 hxs hl hvs
      · simp only [if_true, shl1, hx, bind, Except.bind]
        exact ih vs _ hxs hl hvs

theorem resizeAndCheck_eq (cs vs : List Nat) : resizeAndCheckControlValues cs vs =
    if cs.length ≠ (effectiveValues cs vs).length then
      .error (.throw "The size of controls and control_values must be the same.")
    else .ok (effectiveValues cs vs) := rfl

theorem mkOperands_ok {ts cs vs : List Nat} {o : Operands} (h : mkOperands ts cs vs = .ok o) :
    ts.Nodup ∧ (∀ x ∈ ts, x < 64) ∧ cs.Nodup ∧ (∀ x ∈ cs, x < 64) ∧ (∀ x ∈ ts, x ∉ cs) ∧
    cs.length = (effectiveValues cs vs).length ∧ (∀ v ∈ effectiveValues cs vs, v = 0 ∨ v = 1) ∧
    (∀ i, o.t.getLsbD i = decide (i ∈ ts)) ∧ (∀ i, o.c.getLsbD i = decide (i ∈ cs)) ∧
    (∀ i, o.v.getLsbD i = decide ((i, 1) ∈ cs.zip (effectiveValues cs vs))) := by
  unfold mkOperands at h
  rw [resizeAndCheck_eq] at h
  simp only [bind, Except.bind] at h
  by_cases hl : cs.length ≠ (effectiveValues cs vs).length
  · rw [if_pos hl] at h; cases h
  · rw [if_neg hl] at h
    push Not at hl
    simp only at h
    cases ht : vectorToMask ts with
    | error e => rw [ht] at h; cases h
    | ok t =>
      cases hc : vectorToMask cs with
      | error e => rw [ht, hc] at h; cases h
      | ok c =>
        rw [ht, hc] at h
        simp only at h
        cases hv : vectorToMask2 cs (effectiveValues cs vs) 0 with
        | error e => rw [hv] at h; cases h
        | ok v =>
          rw [hv] at h
          simp only [gateBase] at h
          obtain ⟨tn, tl⟩ := (vectorToMask_ok_iff ts).1 ⟨t, ht⟩
          obtain ⟨cn, cl⟩ := (vectorToMask_ok_iff cs).1 ⟨c, hc⟩
          have tb := getLsbD_vectorToMask ht
          have cb := getLsbD_vectorToMask hc
          obtain ⟨v1, v2, v3⟩ := vectorToMask2_ok cs _ 0 v cl hv
          by_cases hov : t &&& c ≠ 0
          · rw [if_pos hov] at h; cases h
          · rw [if_neg hov] at h
            push Not at hov
            injection h with h
            subst h
            refine ⟨tn, tl, cn, cl, ?_, hl, ?_, tb, cb, ?_⟩
            · intro x hx hxc
              have := bit_and_eq hov x
              rw [tb, cb] at this
              simp [hx, hxc] at this
            · intro w hw
              obtain ⟨k, hk, rfl⟩ := List.getElem_of_mem hw
              have hk' : k < cs.length := by omega
              have : (cs[k], (effectiveValues cs vs)[k]) ∈ cs.zip (effectiveValues cs vs) := by
                rw [List.mem_iff_getElem]
                exact ⟨k, by simp; omega, by simp⟩
              exact v1 _ this
            · intro i; rw [v3 i]; simp

/-- the factories accept every well-formed operand description -/
theorem mkOperands_complete {ts cs vs : List Nat} (h1 : ts.Nodup) (h2 : ∀ x ∈ ts, x < 64)
    (h3 : cs.Nodup) (h4 : ∀ x ∈ cs, x < 64) (h5 : ∀ x ∈ ts, x ∉ cs)
    (h6 : cs.length = (effectiveValues cs vs).length) (h7 : ∀ v ∈ effectiveValues cs vs, v = 0 ∨ v = 1) :
    ∃ o, mkOperands ts cs vs = .ok o := by
  obtain ⟨t, ht⟩ := (vectorToMask_ok_iff ts).2 ⟨h1, h2⟩
  obtain ⟨c, hc⟩ := (vectorToMask_ok_iff cs).2 ⟨h3, h4⟩
  obtain ⟨v, hv⟩ := vectorToMask2_complete cs (effectiveValues cs vs) 0 h4 h6 h7
  have hov : ¬ (t &&& c ≠ 0) := by
    push Not
    rw [and_eq_iff]
    intro i _
    rw [getLsbD_vectorToMask ht, getLsbD_vectorToMask hc]
    by_cases hi : i ∈ ts
    · simp [hi, h5 i hi]
    · simp [hi]
  refine ⟨⟨t, c, v⟩, ?_⟩
  unfold mkOperands
  rw [resizeAndCheck_eq]
  simp only [bind, Except.bind]
  rw [if_neg (by simpa using h6)]
  simp only [ht, hc]
  rw [hv]
  simp only [gateBase]
  rw [if_neg hov]

theorem zip_nodup_unique {cs vs : List Nat} (h : cs.Nodup) {i a b : Nat}
    (h1 : (i, a) ∈ cs.zip vs) (h2 : (i, b) ∈ cs.zip vs) : a = b := by
  induction cs generalizing vs with
  | nil => simp at h1
  | cons c cs ih =>
    cases vs with
    | nil => simp at h1
    | cons v vs =>
      simp only [List.zip_cons_cons, List.mem_cons, Prod.mk.injEq] at h1 h2
      obtain ⟨hc, hcs⟩ := List.nodup_cons.1 h
      rcases h1 with ⟨rfl, rfl⟩ | h1
      · rcases h2 with ⟨_, rfl⟩ | h2
        · rfl
        · exact absurd (List.of_mem_zip h2).1 hc
      · rcases h2 with ⟨rfl, rfl⟩ | h2
        · exact absurd (List.of_mem_zip h1).1 hc
        · exact ih hcs h1 h2

theorem mem_zip_of_mem {cs vs : List Nat} (hl : cs.length = vs.length) {i : Nat} (h : i ∈ cs) :
    ∃ a, (i, a) ∈ cs.zip vs ∧ a ∈ vs := by
  obtain ⟨k, hk, rfl⟩ := List.getElem_of_mem h
  refine ⟨vs[k], ?_, List.getElem_mem _⟩
  rw [List.mem_iff_getElem]
  exact ⟨k, by simp; omega, by simp⟩

/-- **Control masks mean the control condition.** -/
theorem ctrl_mask_iff {ts cs vs : List Nat} {o : Operands} (h : mkOperands ts cs vs = .ok o) (j : U64) :
    j &&& o.c = o.v ↔ ∀ p ∈ ctrlList cs vs, j.getLsbD p.1 = p.2 := by
  obtain ⟨-, -, cn, cl, -, hl, hv, -, cb, vb⟩ := mkOperands_ok h
  rw [and_eq_iff]
  constructor
  · intro hj p hp
    simp only [ctrlList, List.mem_map] at hp
    obtain ⟨⟨i, a⟩, hmem, rfl⟩ := hp
    have hi : i ∈ cs := (List.of_mem_zip hmem).1
    have ha : a ∈ effectiveValues cs vs := (List.of_mem_zip hmem).2
    have := hj i (cl i hi)
    rw [cb, vb] at this
    simp only [hi, decide_true, Bool.and_true] at this
    simp only
    rw [this]
    rcases hv a ha with rfl | rfl
    · have : (i, 1) ∉ cs.zip (effectiveValues cs vs) := fun hm => by
        have := zip_nodup_unique cn hmem hm; omega
      simp [this]
    · simp [hmem]
  · intro hj i hi
    rw [cb, vb]
    by_cases hic : i ∈ cs
    · obtain ⟨a, hmem, ha⟩ := mem_zip_of_mem hl hic
      have := hj (i, a == 1) (by simp only [ctrlList, List.mem_map]; exact ⟨(i, a), hmem, rfl⟩)
      simp only at this
      rw [this]
      rcases hv a ha with rfl | rfl
      · have : (i, 1) ∉ cs.zip (effectiveValues cs vs) := fun hm => by
          have := zip_nodup_unique cn hmem hm; omega
        simp [this]
      · simp [hmem, hic]
    · have : (i, 1) ∉ cs.zip (effectiveValues cs vs) := fun hm => hic (List.of_mem_zip hm).1
      simp [hic, this]

/-- operands accepted by a factory and by the bounds check are well formed for the kernels -/
theorem masksOK_of {ts cs vs : List Nat} {o : Operands} {B n : Nat} (h : mkOperands ts cs vs = .ok o)
    (hb : ∀ x, x ∈ ts ∨ x ∈ cs → x < n) (hn : B * 2 ^ n ≤ 2 ^ 64) : MasksOK B n o.t o.c o.v := by
  obtain ⟨-, -, -, -, hdisj, -, -, tb, cb, vb⟩ := mkOperands_ok h
  refine ⟨hn, ?_, ?_, ?_⟩
  · rw [toNat_lt_two_pow_iff]
    intro i hi
    rw [BitVec.getLsbD_or, tb, cb]
    have h1 : i ∉ ts := fun hm => by have := hb i (.inl hm); omega
    have h2 : i ∉ cs := fun hm => by have := hb i (.inr hm); omega
    simp [h1, h2]
  · intro i
    rw [tb, cb]
    by_cases hi : i ∈ ts
    · simp [hi, hdisj i hi]
    · simp [hi]
  · intro i hi
    rw [vb] at hi
    rw [cb]
    simp only [decide_eq_true_eq] at hi ⊢
    exact (List.of_mem_zip hi).1

/-- the bounds check accepts exactly the gates whose qubits are in the register -/
theorem checkWithinBounds_ok_iff {ts cs vs : List Nat} {o : Operands} {n : Nat} (hn : n < 64)
    (h : mkOperands ts cs vs = .ok o) :
    checkWithinBounds o n = .ok () ↔ ∀ x, x ∈ ts ∨ x ∈ cs → x < n := by
  obtain ⟨-, -, -, -, -, -, -, tb, cb, -⟩ := mkOperands_ok h
  have hfull : ((1#64 <<< n) - 1).toNat = 2 ^ n - 1 := by
    have h2 : 2 ^ n < 2 ^ 64 := Nat.pow_lt_pow_right (by omega) hn
    have h3 : 0 < 2 ^ n := Nat.two_pow_pos n
    have h4 : (1#64 <<< n).toNat = 2 ^ n := by
      rw [BitVec.toNat_shiftLeft, Nat.shiftLeft_eq]
      have : (1#64).toNat = 1 := rfl
      rw [this, Nat.one_mul, Nat.mod_eq_of_lt h2]
    have h5 : (1 : U64).toNat = 1 := rfl
    rw [BitVec.toNat_sub, h4, h5]
    omega
  have key : (o.t ||| o.c).toNat < 2 ^ n ↔ ∀ x, x ∈ ts ∨ x ∈ cs → x < n := by
    rw [toNat_lt_two_pow_iff]
    constructor
    · intro hb x hx
      by_contra hge
      have := hb x (by omega)
      rw [BitVec.getLsbD_or, tb, cb] at this
      rcases hx with hx | hx <;> simp [hx] at this
    · intro hb i hi
      rw [BitVec.getLsbD_or, tb, cb]
      have h1 : i ∉ ts := fun hm => by have := hb i (.inl hm); omega
      have h2 : i ∉ cs := fun hm => by have := hb i (.inr hm); omega
      simp [h1, h2]
  rw [← key]
  unfold checkWithinBounds
  simp only [shl1, hn, if_true, bind, Except.bind]
  rw [hfull]
  have h3 : 0 < 2 ^ n := Nat.two_pow_pos n
  by_cases hlt : 2 ^ n - 1 < (o.t ||| o.c).toNat
  · rw [if_pos hlt]
    constructor
    · intro h; cases h
    · intro h; omega
  · rw [if_neg hlt]
    constructor
    · intro _; omega
    · intro _; rfl

end Verif.Model
