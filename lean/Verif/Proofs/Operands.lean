import Verif.Model.Mask
import Verif.Core.Scatter
import Verif.Core.Block

/-! # What a successful factory call and a successful bounds check give the kernels -/

namespace Verif.Proofs
open Verif Verif.Spec Verif.Model
attribute [-simp] BitVec.getLsbD_eq_getElem

/-- the listed qubits in increasing order -/
def sortQ (l : List Nat) : List Nat := l.mergeSort (fun a b => decide (a ≤ b))

theorem mem_sortQ {l : List Nat} {x : Nat} : x ∈ sortQ l ↔ x ∈ l := List.mem_mergeSort

theorem length_sortQ (l : List Nat) : (sortQ l).length = l.length := List.length_mergeSort l

theorem sortQ_perm (l : List Nat) : (sortQ l).Perm l := List.mergeSort_perm l _

theorem sortQ_pairwise {l : List Nat} (h : l.Nodup) : (sortQ l).Pairwise (· < ·) := by
  have h1 : (sortQ l).Pairwise (fun a b => decide (a ≤ b) = true) :=
    List.pairwise_mergeSort (by intro a b c; simp; omega) (by intro a b; simp; omega) l
  have h2 : (sortQ l).Nodup := (sortQ_perm l).nodup_iff.2 h
  have h3 := List.Pairwise.and h1 h2
  exact h3.imp (by intro a b h; simp at h; omega)

theorem checkWithinBounds_lt {o : Operands} {n : Nat} (h : checkWithinBounds o n = .ok ()) : n < 64 := by
  by_contra hn
  have : shl1 n = .error (.ub "shift by >= 64") := by unfold shl1; rw [if_neg hn]
  unfold checkWithinBounds at h
  rw [this] at h
  cases h

/-- everything the kernels need to know about their operands -/
structure Ctx (ts cs vs : List Nat) (o : Operands) (B n : Nat) : Prop where
  hn : n < 64
  masks : MasksOK B n o.t o.c o.v
  ctrl : ∀ j : U64, j &&& o.c = o.v ↔ CtrlOK (ctrlList cs vs) j
  maskOf : MaskOf o.t (sortQ ts)
  targets : TargetsOK ts
  disj : CtrlDisj (ctrlList cs vs) ts
  tlt : ∀ q ∈ ts, q < n
  clt : ∀ q ∈ cs, q < n

theorem mem_ctrlList {cs vs : List Nat} {p : Nat × Bool} (h : p ∈ ctrlList cs vs) : p.1 ∈ cs := by
  unfold ctrlList at h
  rw [List.mem_map] at h
  obtain ⟨x, hx, rfl⟩ := h
  exact (List.of_mem_zip hx).1

theorem ctx_of {ts cs vs : List Nat} {o : Operands} {B n : Nat} (hmk : mkOperands ts cs vs = .ok o)
    (hck : checkWithinBounds o n = .ok ()) (hsize : B * 2 ^ n ≤ 2 ^ 64) : Ctx ts cs vs o B n := by
  have hn := checkWithinBounds_lt hck
  have hb := (checkWithinBounds_ok_iff hn hmk).1 hck
  obtain ⟨tn, tl, cn, cl, hdisj, -, -, tb, cb, -⟩ := mkOperands_ok hmk
  refine ⟨hn, masksOK_of hmk hb hsize, ctrl_mask_iff hmk, ?_, ⟨tn, tl⟩, ?_, fun q hq => hb q (.inl hq),
    fun q hq => hb q (.inr hq)⟩
  · refine ⟨sortQ_pairwise tn, fun q hq => tl q (mem_sortQ.1 hq), ?_⟩
    intro i
    rw [tb]
    exact decide_eq_decide.2 mem_sortQ.symm
  · intro p hp hm
    exact hdisj _ hm (mem_ctrlList hp)

theorem isBit_of {q : Nat} {cs vs : List Nat} {o : Operands} (hmk : mkOperands [q] cs vs = .ok o) :
    IsBit o.t q := by
  obtain ⟨-, tl, -, -, -, -, -, tb, -, -⟩ := mkOperands_ok hmk
  refine ⟨tl q (by simp), ?_⟩
  intro i
  rw [tb]; simp

/-- the operator does not depend on the order in which targets are listed, up to reordering the matrix -/
theorem applyMat_sortQ {R : Type} [AddCommMonoid R] [Mul R] {ts : List Nat} {cs : List (Nat × Bool)}
    (h : TargetsOK ts) (U : Nat → Nat → R) :
    applyMat ts U cs = applyMat (sortQ ts)
      (fun r s => U (reorder (sortQ ts) ts r) (reorder (sortQ ts) ts s)) cs :=
  applyMat_reorder h ⟨(sortQ_perm ts).nodup_iff.2 h.nodup, fun q hq => h.lt q (mem_sortQ.1 hq)⟩
    (fun _ => mem_sortQ.symm) U

end Verif.Proofs
