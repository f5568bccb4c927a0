import Verif.Proofs.GateDescFacts

/-! # C03-C10, C13-C17: what gates do

A gate is described by the arguments of its factory function (`GateDesc`), built by the model of that factory
(`GateDesc.build`) and applied by the model of `update_quantum_state` (`UGate.update`) to `B` states of `n` qubits;
`L` is the number of SIMD lanes of the build (0 = scalar). -/

namespace Verif.Props
open Verif Verif.Spec Verif.Model Verif.Proofs
attribute [-simp] BitVec.getLsbD_eq_getElem

/-- `update_quantum_state` of `g` succeeds and under every schedule changes the state by `f` -/
def Performs (g : UGate) (L B n : Nat) (f : (U64 → ℂ) → U64 → ℂ) : Prop :=
  ∃ dev, g.update L B n = .ok dev ∧ ∀ ψ, DRuns (B * 2 ^ n) dev ψ (onState (B * 2 ^ n) f ψ)

/-- the register is small enough for 64-bit indices -/
structure Fits (L B n : Nat) : Prop where
  lanes : LanesOK L
  qubits : n < 64
  size : B * 2 ^ n ≤ 2 ^ 64

example : Fits 8 3 10 := ⟨Or.inr ⟨3, by norm_num, by norm_num⟩, by norm_num, by norm_num⟩
example : Fits 0 1 63 := ⟨Or.inl rfl, by norm_num, by norm_num⟩

theorem performs_of_build {d : GateDesc} {g : UGate} (hd : DescOK d) (h : d.build = .ok g) {L B n : Nat}
    (hf : Fits L B n) (hq : ∀ q ∈ qubitsOf d, q < n) : Performs g L B n (operatorOf d) :=
  build_update hd h hf.lanes hf.qubits hf.size hq

/-- a factory call with well-formed operands succeeds -/
theorem build_one (k : Gate1) {q : Nat} {cs vs : List Nat} (h2 : q < 64)
    (h3 : cs.Nodup) (h4 : ∀ x ∈ cs, x < 64) (h5 : q ∉ cs)
    (h6 : cs.length = (effectiveValues cs vs).length) (h7 : ∀ v ∈ effectiveValues cs vs, v = 0 ∨ v = 1) :
    ∃ g, (GateDesc.one k q cs vs).build = .ok g := by
  obtain ⟨o, ho⟩ := mkOperands_complete (ts := [q]) (cs := cs) (vs := vs) (by simp) (by simpa using h2) h3 h4
    (by simpa using h5) h6 h7
  exact ⟨.one k o, by simp [GateDesc.build, ho]⟩

/-! ## C03 -/

/-- **C03.** A one-qubit gate replaces every amplitude whose index satisfies the controls by the row of the gate's
matrix applied to the two amplitudes differing in the target bit, and leaves all other amplitudes alone. -/
theorem C03_one_qubit_gates (k : Gate1) {q : Nat} {cs vs : List Nat} {g : UGate}
    (h : (GateDesc.one k q cs vs).build = .ok g) {L B n : Nat} (hf : Fits L B n)
    (hq : q < n) (hc : ∀ c ∈ cs, c < n) :
    Performs g L B n (fun ψ j =>
      if CtrlOK (ctrlList cs vs) j then
        gate1Mat k (j.getLsbD q).toNat 0 * ψ (setBit j q false) + gate1Mat k (j.getLsbD q).toNat 1 * ψ (setBit j q true)
      else ψ j) := by
  have := performs_of_build (d := .one k q cs vs) trivial h hf (by
    intro x hx
    simp only [qubitsOf, targetsOf, controlsOf, List.mem_append, List.mem_singleton, List.mem_map] at hx
    rcases hx with rfl | ⟨p, hp, rfl⟩
    · exact hq
    · exact hc _ (mem_ctrlList hp))
  have e : operatorOf (.one k q cs vs) = fun ψ j =>
      if CtrlOK (ctrlList cs vs) j then
        gate1Mat k (j.getLsbD q).toNat 0 * ψ (setBit j q false) + gate1Mat k (j.getLsbD q).toNat 1 * ψ (setBit j q true)
      else ψ j := by
    funext ψ j
    exact applyMat_one q (gate1Mat k) (ctrlList cs vs) ψ j
  rw [e] at this
  exact this

example : ∃ g, (GateDesc.one (.U3 1 2 3) 4 [1, 7] [0, 1]).build = .ok g ∧ 4 < 9 ∧ ∀ c ∈ [1, 7], c < 9 := by
  obtain ⟨g, hg⟩ := build_one (.U3 1 2 3) (q := 4) (cs := [1, 7]) (vs := [0, 1]) (by simp) (by simp) (by simp) (by simp)
    (by simp [effectiveValues]) (by simp [effectiveValues])
  exact ⟨g, hg, by simp, by simp⟩

/-! ## C04 -/

/-- the index with bits `a` and `b` exchanged -/
def exchange (a b : Nat) (j : U64) : U64 := setBit (setBit j a (j.getLsbD b)) b (j.getLsbD a)

/-- applying `g` and then `g'` gives back every state -/
def Undoes (g' g : UGate) (L B n : Nat) : Prop :=
  ∃ dev dev', g.update L B n = .ok dev ∧ g'.update L B n = .ok dev' ∧ ∀ ψ, DRuns (B * 2 ^ n) (.seq dev dev') ψ ψ

theorem undoes_of {g g' : UGate} (hv : Valid g) (hi : InverseHyp g) (h : g.inverse = .ok g') {L B n : Nat}
    (hf : Fits L B n) (ht : ∀ q ∈ UGate.ts g, q < n) (hc : ∀ p ∈ UGate.cs g, p.1 < n) :
    Undoes g' g L B n ∧ Undoes g g' L B n := by
  obtain ⟨hv', et, ec, -⟩ := inverse_matrix hv hi h
  have ht' : ∀ q ∈ UGate.ts g', q < n := by rw [et]; exact ht
  have hc' : ∀ p ∈ UGate.cs g', p.1 < n := by rw [ec]; exact hc
  obtain ⟨dev, h1, h2⟩ := update_valid hv hf.lanes hf.qubits hf.size ht hc
  obtain ⟨dev', h1', h2'⟩ := update_valid hv' hf.lanes hf.qubits hf.size ht' hc'
  have id1 : ∀ ψ, onState (B * 2 ^ n) (fun φ => opOf g' (opOf g φ)) ψ = ψ := by
    intro ψ; funext j; unfold onState; dsimp only; rw [(inverse_valid hv hi h ψ).1]; split <;> rfl
  have id2 : ∀ ψ, onState (B * 2 ^ n) (fun φ => opOf g (opOf g' φ)) ψ = ψ := by
    intro ψ; funext j; unfold onState; dsimp only; rw [(inverse_valid hv hi h ψ).2]; split <;> rfl
  refine ⟨⟨dev, dev', h1, h1', fun ψ => ⟨_, h2 ψ, ?_⟩⟩, ⟨dev', dev, h1', h1, fun ψ => ⟨_, h2' ψ, ?_⟩⟩⟩
  · have := h2' (onState (B * 2 ^ n) (opOf g) ψ)
    rw [onState_comp (opOf_local ht'), id1] at this
    exact this
  · have := h2 (onState (B * 2 ^ n) (opOf g') ψ)
    rw [onState_comp (opOf_local ht), id2] at this
    exact this

/-- **C04.** Swap moves amplitudes to the index with the two bits exchanged, where the controls hold; doing it twice
is the identity. -/
theorem C04_swap {a b : Nat} {cs vs : List Nat} {g : UGate} (h : (GateDesc.swap a b cs vs).build = .ok g)
    {L B n : Nat} (hf : Fits L B n) (ha : a < n) (hb : b < n) (hc : ∀ c ∈ cs, c < n) :
    Performs g L B n (fun ψ j => if CtrlOK (ctrlList cs vs) j then ψ (exchange a b j) else ψ j) ∧
    Undoes g g L B n := by
  have hq : ∀ x ∈ qubitsOf (.swap a b cs vs), x < n := by
    intro x hx
    simp only [qubitsOf, targetsOf, controlsOf, List.mem_append, List.mem_cons, List.not_mem_nil, or_false,
      List.mem_map] at hx
    rcases hx with (rfl | rfl) | ⟨p, hp, rfl⟩
    · exact ha
    · exact hb
    · exact hc _ (mem_ctrlList hp)
  have hp := performs_of_build (d := .swap a b cs vs) trivial h hf hq
  have e : operatorOf (.swap a b cs vs) = fun ψ j => if CtrlOK (ctrlList cs vs) j then ψ (exchange a b j) else ψ j := by
    funext ψ j; exact swap_explicit (ctrlList cs vs) ψ j
  refine ⟨by rw [e] at hp; exact hp, ?_⟩
  obtain ⟨hv, ho, hs⟩ := build_valid (d := .swap a b cs vs) trivial h
  obtain ⟨h1, h2⟩ := build_bounds hs hq
  obtain ⟨o, ho', h⟩ := bind_ok h
  cases h
  exact (undoes_of hv trivial rfl hf h1 h2).1

/-- the swap kernel does no arithmetic: it works for amplitudes of any type -/
theorem C04_swap_no_arithmetic {R : Type} {a b : Nat} {cs vs : List Nat} {o : Operands} {B n : Nat}
    (h : mkOperands [a, b] cs vs = .ok o) (hb : ∀ q, q ∈ [a, b] ∨ q ∈ cs → q < n) (hsize : B * 2 ^ n ≤ 2 ^ 64)
    (ψ : U64 → R) :
    Runs (InState (B * 2 ^ n)) (swapGate o.t o.c o.v (B * 2 ^ n)) ψ
      (fun j => if j.toNat < B * 2 ^ n ∧ CtrlOK (ctrlList cs vs) j then ψ (exchange a b j) else ψ j) :=
  swapGate_any h hb hsize ψ

theorem operands_exist {ts cs vs : List Nat} (h1 : ts.Nodup) (h2 : ∀ x ∈ ts, x < 64)
    (h3 : cs.Nodup) (h4 : ∀ x ∈ cs, x < 64) (h5 : ∀ x ∈ ts, x ∉ cs)
    (h6 : cs.length = (effectiveValues cs vs).length) (h7 : ∀ v ∈ effectiveValues cs vs, v = 0 ∨ v = 1) :
    ∃ o, mkOperands ts cs vs = .ok o := mkOperands_complete h1 h2 h3 h4 h5 h6 h7

example : ∃ o, mkOperands [5, 2] [0] [0] = .ok o ∧ ∀ q, q ∈ [5, 2] ∨ q ∈ [0] → q < 6 := by
  obtain ⟨o, ho⟩ := operands_exist (ts := [5, 2]) (cs := [0]) (vs := [0]) (by simp) (by simp) (by simp) (by simp)
    (by simp) (by simp [effectiveValues]) (by simp [effectiveValues])
  exact ⟨o, ho, by intro q hq; simp at hq; omega⟩

example : ∃ g, (GateDesc.swap 5 2 [0] [0]).build = .ok g ∧ 5 < 6 ∧ 2 < 6 ∧ ∀ c ∈ [0], c < 6 := by
  obtain ⟨o, ho⟩ := operands_exist (ts := [5, 2]) (cs := [0]) (vs := [0]) (by simp) (by simp) (by simp) (by simp)
    (by simp) (by simp [effectiveValues]) (by simp [effectiveValues])
  exact ⟨.swap o, by simp [GateDesc.build, ho], by simp⟩

/-! ## C05 -/

/-- **C05.** ECR acts as the echoed cross resonance matrix on (control, target) in the order given by the caller, and
twice is the identity. -/
theorem C05_ecr {c t : Nat} {cs vs : List Nat} {g : UGate} (h : (GateDesc.ecr c t cs vs).build = .ok g)
    {L B n : Nat} (hf : Fits L B n) (ha : c < n) (hb : t < n) (hc : ∀ x ∈ cs, x < n) :
    Performs g L B n (applyMat [c, t] ecrMat (ctrlList cs vs)) ∧ Undoes g g L B n := by
  have hq : ∀ x ∈ qubitsOf (.ecr c t cs vs), x < n := by
    intro x hx
    simp only [qubitsOf, targetsOf, controlsOf, List.mem_append, List.mem_cons, List.not_mem_nil, or_false,
      List.mem_map] at hx
    rcases hx with (rfl | rfl) | ⟨p, hp, rfl⟩
    · exact ha
    · exact hb
    · exact hc _ (mem_ctrlList hp)
  refine ⟨performs_of_build (d := .ecr c t cs vs) trivial h hf hq, ?_⟩
  obtain ⟨hv, ho, hs⟩ := build_valid (d := .ecr c t cs vs) trivial h
  obtain ⟨h1, h2⟩ := build_bounds hs hq
  obtain ⟨o, ho', h⟩ := bind_ok h
  cases h
  exact (undoes_of hv trivial rfl hf h1 h2).1

theorem build_ecr {c t : Nat} {cs vs : List Nat} {o : Operands} (h : mkOperands [t, c] cs vs = .ok o) :
    ∃ g, (GateDesc.ecr c t cs vs).build = .ok g := by
  obtain ⟨tn, tl, -⟩ := mkOperands_ok h
  obtain ⟨a, ha⟩ := (vectorToMask_ok_iff [c]).2 ⟨by simp, by simp [tl c (by simp)]⟩
  obtain ⟨b, hb⟩ := (vectorToMask_ok_iff [t]).2 ⟨by simp, by simp [tl t (by simp)]⟩
  exact ⟨_, by simp only [GateDesc.build, mkEcr, h, ha, hb, ok_bind]; rfl⟩

example : ∃ g, (GateDesc.ecr 5 2 [0, 3] []).build = .ok g ∧ 5 < 6 ∧ 2 < 6 ∧ ∀ c ∈ [0, 3], c < 6 := by
  obtain ⟨o, ho⟩ := operands_exist (ts := [2, 5]) (cs := [0, 3]) (vs := []) (by simp) (by simp) (by simp) (by simp)
    (by simp) (by simp [effectiveValues]) (by simp [effectiveValues])
  obtain ⟨g, hg⟩ := build_ecr ho
  exact ⟨g, hg, by simp⟩

/-! ## C06 -/

/-- **C06.** Permutation moves the value of qubit `q` to qubit `dst[q]`: the amplitude of `i` goes to the index `j` with
`j[dst[q]] = i[q]` and the same other bits.  The factory accepts exactly the permutations of `[0, k)`, `k < 64`;
`get_matrix` is the matrix of this map, and `get_inverse` undoes it. -/
theorem C06_permutation {dst : List Nat} (hk : dst.length < 64) (hnd : dst.Nodup) (hlt : ∀ x ∈ dst, x < dst.length)
    {L B n : Nat} (hf : Fits L B n) (hn : dst.length ≤ n) :
    ∃ g g', (GateDesc.perm dst).build = .ok g ∧
      (∃ dev, g.update L B n = .ok dev ∧ ∀ ψ, ∃ φ, DRuns (B * 2 ^ n) dev ψ φ ∧
        ∀ i j : U64, i.toNat < B * 2 ^ n → (∀ q (hq : q < dst.length), j.getLsbD dst[q] = i.getLsbD q) →
          (∀ q, dst.length ≤ q → j.getLsbD q = i.getLsbD q) → φ j = ψ i) ∧
      (∃ M, g.getMatrix = .ok M ∧ M.rows = 2 ^ dst.length ∧ M.cols = 2 ^ dst.length ∧
        ∀ r s, r < 2 ^ dst.length → s < 2 ^ dst.length → M.entry r s = permMat dst r s) ∧
      g.inverse = .ok g' ∧ Undoes g' g L B n ∧ Undoes g g' L B n := by
  have hd : IsPerm dst := ⟨hnd, hlt⟩
  obtain ⟨pg, hg⟩ := mkPerm_complete hk hd
  have hb : (GateDesc.perm dst).build = .ok (.perm pg) := by simp [GateDesc.build, hg]
  have hq : ∀ q ∈ qubitsOf (.perm dst), q < n := by
    intro x hx
    simp [qubitsOf, targetsOf, controlsOf] at hx
    omega
  obtain ⟨hv, ho, hs⟩ := build_valid (d := .perm dst) trivial hb
  obtain ⟨h1, h2⟩ := build_bounds hs hq
  obtain ⟨-, hg'⟩ := mkPerm_ok hg
  obtain ⟨-, hgd, -⟩ := permCtor_spec hk hg'
  obtain ⟨inv, pg', hi, -⟩ := permInverse_ok hk hg'
  have hinv : UGate.inverse (.perm pg) = .ok (.perm pg') := by simp [UGate.inverse, hi]
  obtain ⟨dev, hu, hr⟩ := performs_of_build (d := .perm dst) trivial hb hf hq
  have hts : (UGate.ts (.perm pg)).length = dst.length := by
    have hp : (UGate.ts (.perm pg)).Perm (List.range dst.length) :=
      (List.perm_ext_iff_of_nodup (maskToVector_nodup _) List.nodup_range).2 hs.1
    rw [hp.length_eq, List.length_range]
  refine ⟨.perm pg, .perm pg', hb, ⟨dev, hu, fun ψ => ⟨_, hr ψ, ?_⟩⟩, ?_, hinv,
    (undoes_of hv trivial hinv hf h1 h2).1, (undoes_of hv trivial hinv hf h1 h2).2⟩
  · intro i j hi hjq hjo
    have hT := targetsOK_range (k := dst.length) (by omega)
    have hj : putBits j (List.range dst.length) (getBits j dst) = i := by
      apply U64.ext; intro q hq64
      by_cases hql : q < dst.length
      · have := getLsbD_putBits_get j hT.nodup hT.lt (getBits j dst) (k := q) (by simpa using hql)
        rw [List.getElem_range] at this
        rw [this, testBit_getBits, List.getElem?_eq_getElem hql]
        exact hjq q hql
      · rw [getLsbD_putBits_notMem j hT.lt _ (by simp; omega)]
        exact hjo q (by omega)
    have hjn : j.toNat < B * 2 ^ n := by
      rw [← hj] at hi
      exact (putBits_inState hT.lt (fun q hq' => by simp at hq'; omega) j _).1 hi
    unfold onState
    rw [if_pos hjn]
    show applyMat (List.range dst.length) (permMat dst) [] ψ j = ψ i
    rw [applyMat_permMat (by omega) hd, hj]
  · obtain ⟨M, hM, hr, hc, he⟩ := getMatrix_valid hv (by unfold TargetsFit; omega)
    rw [hts] at hr hc he
    refine ⟨M, hM, hr, hc, ?_⟩
    intro r s hr hs
    rw [he r s hr hs]
    show permMat pg.dst r s = _
    rw [hgd]

/-- the factory rejects everything else -/
theorem C06_rejects {dst : List Nat} {g : UGate} (h : (GateDesc.perm dst).build = .ok g) :
    dst.length < 64 ∧ dst.Nodup ∧ ∀ x ∈ dst, x < dst.length := by
  obtain ⟨pg, hg, h⟩ := bind_ok h
  obtain ⟨hk, hg⟩ := mkPerm_ok hg
  obtain ⟨hd, -⟩ := permCtor_spec hk hg
  exact ⟨hk, hd.nodup, hd.lt⟩

example : [2, 0, 3, 1].length < 64 ∧ [2, 0, 3, 1].Nodup ∧ (∀ x ∈ [2, 0, 3, 1], x < [2, 0, 3, 1].length) ∧
    [2, 0, 3, 1].length ≤ 5 := by simp

/-! ## C07 -/

/-- **C07.** DenseMatrix acts as the caller's matrix on the targets in the caller's order. -/
theorem C07_dense {ts cs vs : List Nat} {M : DMat ℂ} {u : Bool} {g : UGate}
    (h : (GateDesc.dense ts M cs vs u).build = .ok g) {L B n : Nat} (hf : Fits L B n)
    (ht : ∀ q ∈ ts, q < n) (hc : ∀ c ∈ cs, c < n) :
    Performs g L B n (applyMat ts M.entry (ctrlList cs vs)) :=
  performs_of_build (d := .dense ts M cs vs u) trivial h hf (by
    intro x hx
    simp only [qubitsOf, targetsOf, controlsOf, List.mem_append, List.mem_map] at hx
    rcases hx with h | ⟨p, hp, rfl⟩
    · exact ht _ h
    · exact hc _ (mem_ctrlList hp))

theorem build_dense {ts cs vs : List Nat} {M : DMat ℂ} {u : Bool} {o : Operands} (h : mkOperands ts cs vs = .ok o)
    (hl : ts.length < 64) (hr : M.rows = 2 ^ ts.length) (hc : M.cols = 2 ^ ts.length) :
    ∃ g, (GateDesc.dense ts M cs vs u).build = .ok g := by
  obtain ⟨tn, tl, -⟩ := mkOperands_ok h
  obtain ⟨vals, hv, -⟩ := bind_ok h
  have hs : shl1 ts.length = .ok (1#64 <<< ts.length) := by unfold shl1; rw [if_pos hl]
  have hsz : ¬ (M.rows ≠ (1#64 <<< ts.length).toNat ∨ M.cols ≠ (1#64 <<< ts.length).toNat) := by
    rw [toNat_one_shl hl]; simp [hr, hc]
  simp only [GateDesc.build, mkDense, hv, hs, ok_bind, if_neg hsz]
  by_cases hsrt : isSorted ts = true
  · simp only [hsrt, if_true, h, ok_bind]; exact ⟨_, rfl⟩
  · simp only [hsrt, Bool.false_eq_true, if_false, transformByOrder_ok ⟨tn, tl⟩ M hr hc, h, ok_bind]; exact ⟨_, rfl⟩

example (M : DMat ℂ) (hr : M.rows = 8) (hc : M.cols = 8) :
    ∃ g, (GateDesc.dense [4, 1, 3] M [0, 2] [1, 0] false).build = .ok g ∧
      (∀ q ∈ [4, 1, 3], q < 5) ∧ ∀ c ∈ [0, 2], c < 5 := by
  obtain ⟨o, ho⟩ := operands_exist (ts := [4, 1, 3]) (cs := [0, 2]) (vs := [1, 0]) (by simp) (by simp) (by simp)
    (by simp) (by simp) (by simp [effectiveValues]) (by simp [effectiveValues])
  obtain ⟨g, hg⟩ := build_dense (u := false) ho (by simp) hr hc
  exact ⟨g, hg, by simp, by simp⟩

/-! ## C08 -/

/-- **C08.** A SparseMatrix gate performs the same operation as the DenseMatrix gate of the same entries. -/
theorem C08_sparse_eq_dense {ts cs vs : List Nat} {S : SMat ℂ} {M : DMat ℂ} {u : Bool} {g g' : UGate}
    (hS : SMat.OK S (2 ^ ts.length)) (hM : ∀ r s, r < 2 ^ ts.length → s < 2 ^ ts.length → M.entry r s = storedEntry S r s)
    (h : (GateDesc.sparse ts S cs vs).build = .ok g) (h' : (GateDesc.dense ts M cs vs u).build = .ok g')
    {L B n : Nat} (hf : Fits L B n) (ht : ∀ q ∈ ts, q < n) (hc : ∀ c ∈ cs, c < n) :
    ∃ f, Performs g L B n f ∧ Performs g' L B n f := by
  refine ⟨applyMat ts M.entry (ctrlList cs vs), ?_, C07_dense h' hf ht hc⟩
  rw [applyMat_congr hM]
  exact performs_of_build (d := .sparse ts S cs vs) hS h hf (by
    intro x hx
    simp only [qubitsOf, targetsOf, controlsOf, List.mem_append, List.mem_map] at hx
    rcases hx with h | ⟨p, hp, rfl⟩
    · exact ht _ h
    · exact hc _ (mem_ctrlList hp))

/-- a 4x4 matrix with an empty row, a full row and unordered columns -/
example : SMat.OK (⟨4, [[(2, 1), (0, 5)], [], [(0, 1), (1, 2), (2, 3), (3, 4)], [(3, Complex.I)]]⟩ : SMat ℂ) (2 ^ [3, 1].length) :=
  ⟨rfl, rfl, by simp; constructor <;> intro a b h <;> omega⟩

example : ∃ g, (GateDesc.sparse [1, 3] ⟨4, [[(2, 1), (0, 5)], [], [(0, 1), (1, 2), (2, 3), (3, 4)], [(3, Complex.I)]]⟩
    [0] []).build = .ok g := by
  obtain ⟨o, ho⟩ := operands_exist (ts := [1, 3]) (cs := [0]) (vs := []) (by simp) (by simp) (by simp)
    (by simp) (by simp) (by simp [effectiveValues]) (by simp [effectiveValues])
  obtain ⟨vals, hv, -⟩ := bind_ok ho
  exact ⟨_, by simp only [GateDesc.build, mkSparse, hv, ho, ok_bind]; rfl⟩

/-! ## C09 -/

/-- **C09.** The build with `L` SIMD lanes and the scalar build (`L = 0`) bring every state to the same final state,
whichever kernel the dispatcher picks. -/
theorem C09_simd_eq_scalar {d : GateDesc} {g : UGate} (hd : DescOK d) (h : d.build = .ok g) {L B n : Nat}
    (hf : Fits L B n) (hq : ∀ q ∈ qubitsOf d, q < n) :
    ∃ devL dev0, g.update L B n = .ok devL ∧ g.update 0 B n = .ok dev0 ∧
      ∀ ψ φ, DRuns (B * 2 ^ n) devL ψ φ ↔ DRuns (B * 2 ^ n) dev0 ψ φ := by
  obtain ⟨devL, h1, h2⟩ := performs_of_build hd h hf hq
  obtain ⟨dev0, h3, h4⟩ := performs_of_build hd h (L := 0) ⟨Or.inl rfl, hf.qubits, hf.size⟩ hq
  refine ⟨devL, dev0, h1, h3, fun ψ φ => ⟨fun hh => ?_, fun hh => ?_⟩⟩
  · rw [DRuns.unique hh (h2 ψ)]; exact h4 ψ
  · rw [DRuns.unique hh (h4 ψ)]; exact h2 ψ

example : ∃ g, (GateDesc.one .H 4 [1, 7] [0, 1]).build = .ok g ∧ (∀ q ∈ qubitsOf (.one .H 4 [1, 7] [0, 1]), q < 9) ∧
    Fits 4 1 9 := by
  obtain ⟨g, hg⟩ := build_one .H (q := 4) (cs := [1, 7]) (vs := [0, 1]) (by simp) (by simp) (by simp) (by simp)
    (by simp [effectiveValues]) (by simp [effectiveValues])
  exact ⟨g, hg, by simp [qubitsOf, targetsOf, controlsOf, ctrlList, effectiveValues],
    ⟨Or.inr ⟨2, by norm_num, by norm_num⟩, by norm_num, by norm_num⟩⟩

/-! ## C10 -/

/-- **C10.** What a batched update leaves in slot `b` is what updating that state alone gives. -/
theorem C10_batched {d : GateDesc} {g : UGate} (hd : DescOK d) (h : d.build = .ok g) {L B n : Nat}
    (hf : Fits L B n) (hq : ∀ q ∈ qubitsOf d, q < n) :
    ∃ devB dev1, g.update L B n = .ok devB ∧ g.update L 1 n = .ok dev1 ∧
      ∀ ψ φ, DRuns (B * 2 ^ n) devB ψ φ → ∀ b, b < B →
        ∃ φ1, DRuns (1 * 2 ^ n) dev1 (slot n b ψ) φ1 ∧ ∀ j : U64, j.toNat < 2 ^ n → slot n b φ j = φ1 j := by
  obtain ⟨hv, ho, hs⟩ := build_valid hd h
  obtain ⟨b1, b2⟩ := build_bounds hs hq
  have hn1 : 1 * 2 ^ n ≤ 2 ^ 64 := by
    rw [Nat.one_mul]; exact Nat.pow_le_pow_right (by norm_num) (by have := hf.qubits; omega)
  obtain ⟨devB, h1, h2⟩ := performs_of_build hd h hf hq
  obtain ⟨dev1, h3, h4⟩ := performs_of_build hd h (B := 1) ⟨hf.lanes, hf.qubits, hn1⟩ hq
  refine ⟨devB, dev1, h1, h3, fun ψ φ hφ b hb => ⟨_, h4 (slot n b ψ), fun j hj => ?_⟩⟩
  rw [DRuns.unique hφ (h2 ψ), ← ho]
  exact onState_slot hf.size hb b1 b2 ψ hj

example : ∃ g, (GateDesc.swap 5 2 [0] [0]).build = .ok g ∧ (∀ q ∈ qubitsOf (.swap 5 2 [0] [0]), q < 6) ∧ Fits 0 7 6 ∧ 3 < 7 := by
  obtain ⟨o, ho⟩ := operands_exist (ts := [5, 2]) (cs := [0]) (vs := [0]) (by simp) (by simp) (by simp) (by simp)
    (by simp) (by simp [effectiveValues]) (by simp [effectiveValues])
  exact ⟨.swap o, by simp [GateDesc.build, ho], by simp [qubitsOf, targetsOf, controlsOf, ctrlList, effectiveValues],
    ⟨Or.inl rfl, by norm_num, by norm_num⟩, by norm_num⟩

/-! ## C13 -/

/-- **C13.** Unitary gates preserve the squared norm of every state (of every slot of a batch: use `B = 1` and C10). -/
theorem C13_norm {d : GateDesc} {g : UGate} (hd : DescOK d) (hu : UnitaryDesc d) (h : d.build = .ok g) {L B n : Nat}
    (hf : Fits L B n) (hq : ∀ q ∈ qubitsOf d, q < n) :
    ∃ dev, g.update L B n = .ok dev ∧ ∀ ψ, ∃ φ, DRuns (B * 2 ^ n) dev ψ φ ∧
      normSq (B * 2 ^ n) φ = normSq (B * 2 ^ n) ψ := by
  obtain ⟨hv, ho, hs⟩ := build_valid hd h
  obtain ⟨b1, b2⟩ := build_bounds hs hq
  obtain ⟨dev, h1, h2⟩ := performs_of_build hd h hf hq
  refine ⟨dev, h1, fun ψ => ⟨_, h2 ψ, ?_⟩⟩
  rw [← normSq_valid hv (unitaryHyp_of hd h hu) hf.size b1 ψ, ho]
  unfold normSq
  apply Finset.sum_congr rfl
  intro j hj
  rw [onState, if_pos ((mem_indices hf.size).1 hj)]

/-- every one-qubit gate except the projectors meets the hypothesis of `C13_norm` whatever its angles -/
example (θ phi lam : ℝ) : UnitaryDesc (.one (.U3 θ phi lam) 3 [1] [0]) ∧ UnitaryDesc (.ecr 4 1 [0] []) ∧
    UnitaryDesc (.perm [1, 2, 0]) ∧ UnitaryDesc (.pauliRot ⟨2, 5, 3⟩ θ [] []) ∧
    UnitaryDesc (.pauli ⟨Complex.I, 5, 3⟩ [] []) := by
  simp [UnitaryDesc]

/-! ## C14 -/

/-- **C14 (partial).** Where `get_inverse` succeeds, applying a gate and then its inverse (or the other way round)
restores every state.  Missing: a Pauli gate whose coefficient does not square to 1 (see
`C14_pauli_counterexample`); a dense matrix that the caller wrongly flags as unitary. -/
theorem C14_inverse_partial {d : GateDesc} {g g' : UGate} (hd : DescOK d) (hi : InverseDesc d) (h : d.build = .ok g)
    (h' : g.inverse = .ok g') {L B n : Nat} (hf : Fits L B n) (hq : ∀ q ∈ qubitsOf d, q < n) :
    Undoes g' g L B n ∧ Undoes g g' L B n := by
  obtain ⟨hv, ho, hs⟩ := build_valid hd h
  obtain ⟨b1, b2⟩ := build_bounds hs hq
  exact undoes_of hv (inverseHyp_of hd h hi) h' hf b1 b2

/-- which gates have an inverse: all but projectors, sparse matrices and dense matrices not flagged unitary -/
theorem C14_has_inverse {d : GateDesc} {g : UGate} (h : d.build = .ok g) :
    (∃ g', g.inverse = .ok g') ↔ match d with
      | .one .P0 _ _ _ => False
      | .one .P1 _ _ _ => False
      | .sparse _ _ _ _ => False
      | .dense _ _ _ _ u => u = true
      | _ => True := by
  cases d with
  | ident => cases h; simp [UGate.inverse]
  | globalPhase phase cs vs => obtain ⟨o, ho, h⟩ := bind_ok h; cases h; simp [UGate.inverse]
  | one k q cs vs =>
    obtain ⟨o, ho, h⟩ := bind_ok h; cases h
    cases k <;> simp [UGate.inverse, gate1Inverse] <;>
      exact ⟨_, rfl⟩
  | swap a b cs vs => obtain ⟨o, ho, h⟩ := bind_ok h; cases h; simp [UGate.inverse]
  | ecr c t cs vs => obtain ⟨o, ho, h⟩ := bind_ok h; cases h; simp [UGate.inverse]
  | perm dst =>
    obtain ⟨g, ho, h⟩ := bind_ok h; cases h
    obtain ⟨hk, hg⟩ := mkPerm_ok ho
    obtain ⟨inv, g', hi, -⟩ := permInverse_ok hk hg
    simp [UGate.inverse, hi]
  | dense ts M cs vs u =>
    obtain ⟨g, hg, h⟩ := bind_ok h; cases h
    obtain ⟨-, -, -, -, -, hu, -⟩ := mkDense_ok hg
    cases u
    · simp only [UGate.inverse, denseInverse, hu, Bool.false_eq_true, if_false, iff_false]
      rintro ⟨g', hh⟩; cases hh
    · simp only [UGate.inverse, denseInverse, hu, if_true, iff_true]
      exact ⟨_, rfl⟩
  | sparse ts M cs vs => obtain ⟨o, ho, h⟩ := bind_ok h; cases h; simp [UGate.inverse]
  | pauli p cs vs => obtain ⟨o, ho, h⟩ := bind_ok h; cases h; simp [UGate.inverse]
  | pauliRot p angle cs vs => obtain ⟨o, ho, h⟩ := bind_ok h; cases h; simp [UGate.inverse]

example (θ phi lam : ℝ) : InverseDesc (.one (.U2 phi lam) 3 [1] [0]) ∧ InverseDesc (.pauli ⟨-1, 5, 3⟩ [] []) ∧
    InverseDesc (.pauliRot ⟨Complex.I, 5, 3⟩ θ [] []) := by
  simp [InverseDesc]

/-- **C14 fails for Pauli gates with a general coefficient.**  `get_inverse` of a Pauli gate is the gate itself; for the
operator `i·X₀` applying it twice to `|0⟩` gives `-|0⟩`. -/
theorem C14_pauli_counterexample :
    ∃ g, (GateDesc.pauli ⟨Complex.I, 1, 0⟩ [] []).build = .ok g ∧ g.inverse = .ok g ∧ ¬ Undoes g g 0 1 1 := by
  have hb : ∃ g, mkPauli ⟨Complex.I, 1, 0⟩ [] [] = .ok g := ⟨_, rfl⟩
  obtain ⟨g, hg⟩ := hb
  have hb : (GateDesc.pauli ⟨Complex.I, 1, 0⟩ [] []).build = .ok (.pauli g) := by
    show (mkPauli _ [] [] >>= fun g => pure (UGate.pauli g)) = _
    rw [hg]; rfl
  refine ⟨.pauli g, hb, rfl, ?_⟩
  have e1 : ((1 : U64) ||| 0) = 1 := by decide
  have hpq : pauliQubits ⟨Complex.I, 1, 0⟩ = [0] := by
    simp only [pauliQubits]; decide
  have hq : ∀ q ∈ qubitsOf (.pauli ⟨Complex.I, 1, 0⟩ [] []), q < 1 := by
    intro q hq
    simp only [qubitsOf, targetsOf, controlsOf, hpq] at hq
    simp [ctrlList] at hq
    omega
  have hf : Fits 0 1 1 := ⟨Or.inl rfl, by norm_num, by norm_num⟩
  obtain ⟨dev, h1, h2⟩ := performs_of_build (d := .pauli ⟨Complex.I, 1, 0⟩ [] []) trivial hb hf hq
  rintro ⟨d1, d2, h3, h4, h5⟩
  obtain rfl : dev = d1 := by rw [h1] at h3; exact Except.ok.inj h3
  obtain rfl : dev = d2 := by rw [h1] at h4; exact Except.ok.inj h4
  have hop : ∀ ψ : U64 → ℂ, operatorOf (.pauli ⟨Complex.I, 1, 0⟩ [] []) ψ =
      fun j => Complex.I * ψ (setBit j 0 (!j.getLsbD 0)) := by
    intro ψ; funext j
    unfold operatorOf
    simp only [targetsOf, controlsOf, matrixOf, hpq, ctrlList, effectiveValues]
    simp only [List.zip_nil_left, List.map_nil]
    rw [applyMat_one, if_pos (by simp [CtrlOK])]
    have hl : letterAt ⟨Complex.I, 1, 0⟩ 0 = .X := by decide
    simp only [pauliMat, hpq, List.map_cons, List.map_nil, pauliStringMat, hl, pauli1Mat, pauliX]
    cases j.getLsbD 0 <;> simp [mat2]
  obtain ⟨mid, h6, h7⟩ := h5 (fun j => if j = 0 then 1 else 0)
  have h8 := DRuns.unique h6 (h2 _)
  rw [h8] at h7
  have h9 := congrFun (DRuns.unique h7 (h2 _)) 0
  simp only [onState, hop] at h9
  have z0 : (0 : U64).toNat < 1 * 2 ^ 1 := by decide
  have s0 : setBit (0 : U64) 0 (!(0 : U64).getLsbD 0) = 1 := by decide
  have z1 : (1 : U64).toNat < 1 * 2 ^ 1 := by decide
  have s1 : setBit (1 : U64) 0 (!(1 : U64).getLsbD 0) = 0 := by decide
  rw [if_pos z0, s0, if_pos z1, s1] at h9
  simp only [if_true] at h9
  rw [mul_one, Complex.I_mul_I] at h9
  norm_num at h9

/-! ## C15 -/

/-- **C15.** `get_matrix` returns a matrix of size 2^(number of targets), and applying it to the qubits of
`target_qubit_list()` where the qubits of `control_qubit_list()` have the values of `control_value_list()` is what
`update_quantum_state` does. -/
theorem C15_matrix {d : GateDesc} {g : UGate} (hd : DescOK d) (h : d.build = .ok g) {L B n : Nat}
    (hf : Fits L B n) (hq : ∀ q ∈ qubitsOf d, q < n) :
    ∃ M, g.getMatrix = .ok M ∧ M.rows = 2 ^ g.targetQubitList.length ∧ M.cols = 2 ^ g.targetQubitList.length ∧
      Performs g L B n (applyMat g.targetQubitList M.entry (ctrlList g.controlQubitList g.controlValueList)) := by
  obtain ⟨hv, ho, hs⟩ := build_valid hd h
  obtain ⟨b1, b2⟩ := build_bounds hs hq
  have hfit : TargetsFit g := by
    have h1 := (maskToVector_nodup g.operands.t)
    have h2 : (UGate.ts g).Subperm (List.range n) := (List.subperm_of_subset h1 fun q hq' => by
      rw [List.mem_range]; exact b1 q hq')
    have := h2.length_le
    have := hf.qubits
    unfold TargetsFit
    simp at *
    omega
  obtain ⟨M, hM, hr, hc, he⟩ := getMatrix_valid hv hfit
  refine ⟨M, hM, hr, hc, ?_⟩
  have e : applyMat g.targetQubitList M.entry (ctrlList g.controlQubitList g.controlValueList) = operatorOf d := by
    rw [← ho]
    unfold opOf
    rw [show ctrlList g.controlQubitList g.controlValueList = UGate.cs g from ctrlList_self _]
    exact applyMat_congr he
  rw [e]
  exact performs_of_build hd h hf hq

example : ∃ g, (GateDesc.ecr 5 2 [0, 3] []).build = .ok g ∧ Fits 0 1 6 ∧ ∀ q ∈ qubitsOf (.ecr 5 2 [0, 3] []), q < 6 := by
  obtain ⟨o, ho⟩ := operands_exist (ts := [2, 5]) (cs := [0, 3]) (vs := []) (by simp) (by simp) (by simp) (by simp)
    (by simp) (by simp [effectiveValues]) (by simp [effectiveValues])
  obtain ⟨g, hg⟩ := build_ecr ho
  exact ⟨g, hg, ⟨Or.inl rfl, by norm_num, by norm_num⟩,
    by simp [qubitsOf, targetsOf, controlsOf, ctrlList, effectiveValues]⟩

/-! ## C16 -/

/-- **C16 (partial).** Every gate except I, Pauli and PauliRotation throws when one of its qubits is outside the
register; nothing is launched, so the state is untouched.  Missing: Pauli and PauliRotation gates, which do not check
(`C16_pauli_counterexample`). -/
theorem C16_bounds_partial {d : GateDesc} {g : UGate} (hd : DescOK d) (h : d.build = .ok g)
    (hk : match d with | .pauli _ _ _ => False | .pauliRot _ _ _ _ => False | _ => True)
    {n : Nat} (hn : n < 64) (L B : Nat) {q : Nat} (hq : q ∈ qubitsOf d) (hge : n ≤ q) :
    ∃ msg, g.update L B n = .error (.throw msg) := by
  obtain ⟨hv, ho, hs⟩ := build_valid hd h
  refine update_throws hv ?_ hn L B (q := q) ?_ hge
  · cases d with
    | ident => simp [qubitsOf, targetsOf, controlsOf] at hq
    | pauli p cs vs => exact hk.elim
    | pauliRot p a cs vs => exact hk.elim
    | globalPhase phase cs vs => obtain ⟨o, ho, h⟩ := bind_ok h; cases h; trivial
    | one k q cs vs => obtain ⟨o, ho, h⟩ := bind_ok h; cases h; trivial
    | swap a b cs vs => obtain ⟨o, ho, h⟩ := bind_ok h; cases h; trivial
    | ecr c t cs vs => obtain ⟨o, ho, h⟩ := bind_ok h; cases h; trivial
    | perm dst => obtain ⟨o, ho, h⟩ := bind_ok h; cases h; trivial
    | dense ts M cs vs u => obtain ⟨o, ho, h⟩ := bind_ok h; cases h; trivial
    | sparse ts M cs vs => obtain ⟨o, ho, h⟩ := bind_ok h; cases h; trivial
  · rcases List.mem_append.1 hq with h1 | h1
    · exact .inl ((hs.1 q).2 h1)
    · obtain ⟨p, hp, rfl⟩ := List.mem_map.1 h1
      exact .inr ((hs.2 p.1).2 ⟨p.2, hp⟩)

example : ∃ g, (GateDesc.swap 5 2 [0] [0]).build = .ok g ∧ 5 ∈ qubitsOf (.swap 5 2 [0] [0]) ∧ 4 ≤ 5 := by
  obtain ⟨o, ho⟩ := operands_exist (ts := [5, 2]) (cs := [0]) (vs := [0]) (by simp) (by simp) (by simp) (by simp)
    (by simp) (by simp [effectiveValues]) (by simp [effectiveValues])
  exact ⟨.swap o, by simp [GateDesc.build, ho], by simp [qubitsOf, targetsOf], by simp⟩

/-- **C16 fails for Pauli gates.**  The gate `Pauli(X_q)` on a register of `n ≤ q` qubits (`n ≥ 1`) is launched without
any check, and the launch has no well-defined result: a work item accesses memory outside the state. -/
theorem C16_pauli_counterexample {n q : Nat} (h1 : 1 ≤ n) (hnq : n ≤ q) (hq : q < 64) :
    ∃ g dev, (GateDesc.pauli ⟨1, 1#64 <<< q, 0⟩ [] []).build = .ok g ∧ q ∈ qubitsOf (.pauli ⟨1, 1#64 <<< q, 0⟩ [] []) ∧
      g.update 0 1 n = .ok dev ∧ ∀ ψ φ, ¬ DRuns (1 * 2 ^ n) dev ψ φ := by
  have hz : ∀ x : U64, x ||| 0 = x := fun x => BitVec.or_zero
  refine ⟨.pauli ⟨⟨1, 1#64 <<< q, 0⟩, ⟨1#64 <<< q, 0, 0⟩⟩, applyPauli 0 0 (1#64 <<< q) 0 1 (1 * 2 ^ n), ?_, ?_, rfl,
    fun ψ φ => pauli_out_of_range h1 hnq hq ψ φ⟩
  · have : mkPauli ⟨1, 1#64 <<< q, 0⟩ [] [] = .ok ⟨⟨1, 1#64 <<< q, 0⟩, ⟨1#64 <<< q, 0, 0⟩⟩ := by
      have h0 : gateBase ((1#64 <<< q) ||| 0) 0 0 = .ok ⟨1#64 <<< q, 0, 0⟩ := by
        unfold gateBase
        rw [hz, if_neg]
        push Not
        exact BitVec.and_zero
      show (do let o ← gateBase ((1#64 <<< q) ||| 0) 0 0; pure _ : Res PauliGate) = _
      rw [h0]; rfl
    show (mkPauli _ [] [] >>= fun g => pure (UGate.pauli g)) = _
    rw [this]; rfl
  · unfold qubitsOf targetsOf pauliQubits
    apply List.mem_append_left
    rw [List.mem_filter, List.mem_range]
    exact ⟨hq, by simp [getLsbD_one_shl hq]⟩

example : 1 ≤ 2 ∧ 2 ≤ 5 ∧ 5 < 64 := by norm_num

/-! ## C17 -/

/-- **C17.** A built gate reports the target qubits in increasing order, the control qubits in increasing order, and
every control with its value. -/
theorem C17_lists {d : GateDesc} {g : UGate} (h : d.build = .ok g) :
    g.targetQubitList.Pairwise (· < ·) ∧ g.targetQubitList.Perm (targetsOf d) ∧
    g.controlQubitList.Pairwise (· < ·) ∧ g.controlQubitList.Perm (controlArgs d).1 ∧
    g.controlQubitList.length = g.controlValueList.length ∧
    (g.controlQubitList.zip g.controlValueList).Perm
      ((controlArgs d).1.zip (effectiveValues (controlArgs d).1 (controlArgs d).2)) ∧
    g.operandQubitList.Pairwise (· < ·) ∧ g.operandQubitList.Perm (targetsOf d ++ (controlArgs d).1) := by
  obtain ⟨ts, ho, hp⟩ := build_operands h
  obtain ⟨tn, tl, cn, cl, hdisj, -, -, tb, cb, -⟩ := mkOperands_ok ho
  refine ⟨(maskToVector_spec _).2, ?_, (maskToVector_spec _).2, ?_, by
    unfold UGate.controlQubitList UGate.controlValueList maskToVector2; simp, control_value_list ho,
    (maskToVector_spec _).2, ?_⟩
  · unfold UGate.targetQubitList
    rw [target_list ho]
    exact (sortQ_perm ts).trans hp
  · unfold UGate.controlQubitList
    rw [control_list ho]
    exact sortQ_perm _
  · refine List.Perm.trans ?_ (List.Perm.append_right _ hp)
    refine (List.perm_ext_iff_of_nodup (maskToVector_nodup _) ?_).2 ?_
    · rw [List.nodup_append]
      refine ⟨tn, cn, ?_⟩
      rintro a ha b hb rfl
      exact hdisj a ha hb
    · intro i
      show i ∈ maskToVector _ ↔ _
      rw [(maskToVector_spec _).1, BitVec.getLsbD_or, tb, cb, List.mem_append]
      simp

/-- well-formed operand lists -/
structure ArgsOK (ts cs vs : List Nat) : Prop where
  targets_distinct : ts.Nodup
  targets_lt : ∀ x ∈ ts, x < 64
  controls_distinct : cs.Nodup
  controls_lt : ∀ x ∈ cs, x < 64
  disjoint : ∀ x ∈ ts, x ∉ cs
  values_length : vs = [] ∨ vs.length = cs.length
  values_binary : ∀ v ∈ vs, v = 0 ∨ v = 1

theorem effective_iff {cs vs : List Nat} :
    (cs.length = (effectiveValues cs vs).length ∧ ∀ v ∈ effectiveValues cs vs, v = 0 ∨ v = 1) ↔
    (vs = [] ∨ vs.length = cs.length) ∧ ∀ v ∈ vs, v = 0 ∨ v = 1 := by
  unfold effectiveValues
  cases vs with
  | nil => simp [List.mem_replicate]
  | cons v vs => simp only [List.isEmpty_cons, Bool.false_eq_true, if_false]; simp [eq_comm]

/-- operand lists are accepted exactly when they are well formed, and otherwise an exception is thrown -/
theorem C17_accepts_iff (ts cs vs : List Nat) :
    ((∃ o, mkOperands ts cs vs = .ok o) ↔ ArgsOK ts cs vs) ∧
    (¬ ArgsOK ts cs vs → ∃ msg, mkOperands ts cs vs = .error (.throw msg)) := by
  have key : (∃ o, mkOperands ts cs vs = .ok o) ↔ ArgsOK ts cs vs := by
    constructor
    · rintro ⟨o, h⟩
      obtain ⟨a1, a2, a3, a4, a5, a6, a7, -⟩ := mkOperands_ok h
      obtain ⟨b1, b2⟩ := effective_iff.1 ⟨a6, a7⟩
      exact ⟨a1, a2, a3, a4, a5, b1, b2⟩
    · intro h
      obtain ⟨a6, a7⟩ := effective_iff.2 ⟨h.values_length, h.values_binary⟩
      exact mkOperands_complete h.1 h.2 h.3 h.4 h.5 a6 a7
  refine ⟨key, fun hn => ?_⟩
  cases he : mkOperands ts cs vs with
  | ok o => exact absurd (key.1 ⟨o, he⟩) hn
  | error e =>
    obtain ⟨msg, rfl⟩ := mkOperands_throws he
    exact ⟨msg, rfl⟩

/-- no factory returns a gate for ill-formed lists -/
theorem C17_rejects {d : GateDesc} (hn : ¬ ArgsOK (targetsOf d) (controlArgs d).1 (controlArgs d).2) :
    ∃ e, d.build = .error e := by
  cases h : d.build with
  | error e => exact ⟨e, rfl⟩
  | ok g =>
    obtain ⟨ts, ho, hp⟩ := build_operands h
    obtain ⟨a1, a2, a3, a4, a5, b1, b2⟩ := (C17_accepts_iff _ _ _).1.1 ⟨_, ho⟩
    exact absurd ⟨hp.nodup_iff.1 a1, fun x hx => a2 x (hp.mem_iff.2 hx), a3, a4, fun x hx => a5 x (hp.mem_iff.2 hx), b1, b2⟩ hn

example : ArgsOK [7, 3] [5, 1] [0, 1] := ⟨by simp, by simp, by simp, by simp, by simp, by simp, by simp⟩
example : ¬ ArgsOK [7, 3] [5, 3] [] := fun h => by have := h.disjoint 3 (by simp); simp at this
example : ¬ ArgsOK (targetsOf (.swap 3 3 [] [])) [] [] := fun h => by have := h.targets_distinct; simp [targetsOf] at this

end Verif.Props
