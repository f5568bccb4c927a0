import Verif.Model.DensityObjects
import Verif.Props.Density

/-! # Density matrix objects -/

namespace Verif.Proofs
open Verif Verif.Spec Verif.Model Verif.Props
open scoped ComplexConjugate

attribute [-simp] BitVec.getLsbD_eq_getElem

/-! ## one object -/

/-- the object has the value `v` -/
def LooksLike (d : DM) (v : DVal) : Prop := d.n = v.n ∧ d.hermitian = v.flag ∧ ∀ p, CellOf v.n p → d.raw p = v.elem p

/-- the gate can be constructed -/
def Buildable (d : GateDesc) : Prop := DescOK d ∧ ∃ g, d.build = .ok g

theorem traceOf_congr {n : Nat} (hn : n < 64) {ρ σ : U64 × U64 → ℂ} (h : ∀ p, CellOf n p → ρ p = σ p) : traceOf (2 ^ n) ρ = traceOf (2 ^ n) σ := by
  have hp : (2 : Nat) ^ n < 2 ^ 64 := Nat.pow_lt_pow_right (by norm_num) hn
  refine Finset.sum_congr rfl fun i hi => h _ ?_
  rw [Finset.mem_range] at hi
  constructor <;> · dsimp only; rw [Verif.toNat_ofNat_lt (by omega)]; exact hi

theorem conjugatedBy_congr {n : Nat} (hn : n < 64) {ρ σ : U64 × U64 → ℂ} (F) (h : ∀ p, CellOf n p → ρ p = σ p) (p : U64 × U64) :
    conjugatedBy (2 ^ n) F ρ p = conjugatedBy (2 ^ n) F σ p := by
  have hp : (2 : Nat) ^ n < 2 ^ 64 := Nat.pow_lt_pow_right (by norm_num) hn
  refine Finset.sum_congr rfl fun r hr => Finset.sum_congr rfl fun c hc => ?_
  rw [Finset.mem_range] at hr hc
  rw [h]
  exact ⟨by dsimp only; rw [Verif.toNat_ofNat_lt (by omega)]; exact hr, by dsimp only; rw [Verif.toNat_ofNat_lt (by omega)]; exact hc⟩

theorem partialTraceOf_congr {n : Nat} (hn : n < 64) {qs : List Nat} (hq : ∀ q ∈ qs, q < n) {ρ σ : U64 × U64 → ℂ}
    (h : ∀ p, CellOf n p → ρ p = σ p) (p : U64 × U64) : partialTraceOf n qs ρ p = partialTraceOf n qs σ p :=
  Finset.sum_congr rfl fun _ _ => h _ ⟨jointIndex_lt hn hq _ _, jointIndex_lt hn hq _ _⟩

theorem cell_eq_iff {n r c : Nat} (hn : n < 64) (hr : r < 2 ^ n) (hc : c < 2 ^ n) (p : U64 × U64) :
    p = (BitVec.ofNat 64 r, BitVec.ofNat 64 c) ↔ p.1.toNat = r ∧ p.2.toNat = c := by
  have hp : (2 : Nat) ^ n < 2 ^ 64 := Nat.pow_lt_pow_right (by norm_num) hn
  constructor
  · rintro rfl
    exact ⟨Verif.toNat_ofNat_lt (by omega), Verif.toNat_ofNat_lt (by omega)⟩
  · rintro ⟨rfl, rfl⟩
    simp

theorem looks_fill {d : DM} {op : DMOp} (hn : d.n < 32) {h : Bool} {f g : U64 × U64 → ℂ} (he : op.exec d = .ok ⟨h, [fillM (2 ^ d.n) f]⟩)
    (hg : ∀ p, CellOf d.n p → f p = g p) : ∃ d', d.Does op d' ∧ LooksLike d' ⟨d.n, h, g⟩ :=
  ⟨_, does_fill hn he, rfl, rfl, fun p hp => (setCells_in hp.1 hp.2).trans (hg p hp)⟩

theorem looks_map {d : DM} {op : DMOp} (hn : d.n < 32) {h : Bool} {f : U64 × U64 → ℂ → ℂ} {g : U64 × U64 → ℂ}
    (he : op.exec d = .ok ⟨h, [elementwiseM (2 ^ d.n) f]⟩)
    (hg : ∀ p, CellOf d.n p → f p (d.raw p) = g p) : ∃ d', d.Does op d' ∧ LooksLike d' ⟨d.n, h, g⟩ :=
  ⟨_, does_map hn he, rfl, rfl, fun p hp => (if_pos hp).trans (hg p hp)⟩

theorem basis_eq {n k : Nat} (hn : n < 64) (hk : k < 2 ^ n) (p : U64 × U64) :
    (if p.1 = BitVec.ofNat 64 k ∧ p.2 = BitVec.ofNat 64 k then (1 : ℂ) else 0) = basisMatrix k p := by
  unfold basisMatrix
  have := cell_eq_iff hn hk hk p
  rw [Prod.ext_iff] at this
  simp only [this]

/-- the member functions have the specified effect -/
theorem act_looks {d : DM} {v : DVal} (hn : d.n < 32) (h : LooksLike d v) (a : DAct) :
    match a.effect Buildable v with
    | .done v' => ∃ op d', dactCall a = .ok op ∧ d.Does op d' ∧ LooksLike d' v' ∧ v'.n = v.n
    | .refused => ∃ op msg, dactCall a = .ok op ∧ op.exec d = .error (.throw msg)
    | .unspecified => True := by
  obtain ⟨n, fl, ρ⟩ := d
  obtain ⟨m, fl', σ⟩ := v
  obtain ⟨h1, h2, h3⟩ := h
  dsimp only at h1 h2 h3 hn
  subst h1 h2
  have h64 : n < 64 := by omega
  have hp : (2 : Nat) ^ n < 2 ^ 64 := Nat.pow_lt_pow_right (by norm_num) h64
  cases a with
  | zero =>
    obtain ⟨d', hd, hl⟩ := looks_fill (d := ⟨n, fl, ρ⟩) (op := .setZeroState) hn rfl
      (fun p _ => basis_eq h64 (Nat.two_pow_pos n) p)
    exact ⟨_, d', rfl, hd, hl, rfl⟩
  | zeroNorm =>
    obtain ⟨d', hd, hl⟩ := looks_fill (d := ⟨n, fl, ρ⟩) (op := .setZeroNormState) hn rfl (fun p _ => rfl)
    exact ⟨_, d', rfl, hd, hl, rfl⟩
  | basis k =>
    simp only [DAct.effect]
    by_cases hk : k < 2 ^ n
    · rw [if_pos hk]
      obtain ⟨d', hd, hl⟩ := looks_fill (d := ⟨n, fl, ρ⟩) (op := .setBasis k) hn (by simp only [DMOp.exec]; rw [if_neg (by omega)])
        (fun p _ => basis_eq h64 hk p)
      exact ⟨_, d', rfl, hd, hl, rfl⟩
    · rw [if_neg hk]
      exact ⟨_, _, rfl, by simp only [DMOp.exec]; rw [if_pos (by omega)]⟩
  | coherence r c z =>
    simp only [DAct.effect]
    by_cases hk : r < 2 ^ n ∧ c < 2 ^ n
    · rw [if_pos hk]
      refine ⟨_, _, rfl, does_setCoherence (d := ⟨n, fl, ρ⟩) h64 z hk.1 hk.2, ⟨rfl, ?_, ?_⟩, rfl⟩
      · dsimp only
        rw [← Bool.decide_and]
      · intro p hp
        dsimp only
        have := cell_eq_iff h64 hk.1 hk.2 p
        by_cases e : p = (BitVec.ofNat 64 r, BitVec.ofNat 64 c)
        · rw [if_pos (this.1 e), e, Function.update_self]
        · rw [if_neg (fun e' => e (this.2 e')), Function.update_of_ne e, h3 p hp]
    · rw [if_neg hk]
      exact ⟨_, _, rfl, by simp only [DMOp.exec]; rw [if_pos (by omega)]⟩
  | pair r c z =>
    simp only [DAct.effect]
    by_cases hk : r < 2 ^ n ∧ c < 2 ^ n
    · rw [if_pos hk]
      refine ⟨_, _, rfl, does_setPair (d := ⟨n, fl, ρ⟩) h64 z hk.1 hk.2, ⟨rfl, rfl, ?_⟩, rfl⟩
      intro p hp
      dsimp only
      simp only [cell_eq_iff h64 hk.1 hk.2 p, cell_eq_iff h64 hk.2 hk.1 p]
      rw [h3 p hp]
    · rw [if_neg hk]
      exact ⟨_, _, rfl, by simp only [DMOp.exec]; rw [if_pos (by omega)]⟩
  | loadState m ψ =>
    simp only [DAct.effect]
    by_cases hk : m = n
    · rw [if_pos hk]
      obtain ⟨d', hd, hl⟩ := looks_fill (d := ⟨n, fl, ρ⟩) (op := .loadVector m ψ) hn (by simp only [DMOp.exec]; rw [if_neg (by simpa using hk)])
        (fun p _ => rfl)
      exact ⟨_, d', rfl, hd, hl, rfl⟩
    · rw [if_neg hk]
      exact ⟨_, _, rfl, by simp only [DMOp.exec]; rw [if_pos (by simpa using hk)]⟩
  | loadMatrix rows cols entry claim =>
    simp only [DAct.effect]
    by_cases hk : rows = 2 ^ n ∧ cols = 2 ^ n
    · rw [if_pos hk]
      obtain ⟨d', hd, hl⟩ := looks_fill (d := ⟨n, fl, ρ⟩) (op := .loadMatrix rows cols entry claim) hn
        (by simp only [DMOp.exec]; rw [if_neg (by tauto)]) (fun p _ => rfl)
      exact ⟨_, d', rfl, hd, hl, rfl⟩
    · rw [if_neg hk]
      exact ⟨_, _, rfl, by simp only [DMOp.exec]; rw [if_pos (by tauto)]⟩
  | force => exact ⟨_, _, rfl, does_force _, ⟨rfl, rfl, h3⟩, rfl⟩
  | normalize =>
    simp only [DAct.effect]
    by_cases hk : traceOf (2 ^ n) σ = 0
    · rw [if_pos hk]; trivial
    · rw [if_neg hk]
      have ht := traceOf_congr h64 h3
      refine ⟨_, _, rfl, does_normalize (d := ⟨n, fl, ρ⟩) hn (by dsimp only; rwa [ht]), ⟨rfl, rfl, fun p hp => ?_⟩, rfl⟩
      refine (if_pos hp).trans ?_
      dsimp only
      rw [ht, h3 p hp]
  | scale a =>
    obtain ⟨d', hd, hl⟩ := looks_map (d := ⟨n, fl, ρ⟩) (op := .multiplyCoef a) (g := fun p => a * σ p) hn rfl
      (fun p hp => by dsimp only; rw [h3 p hp, mul_comm])
    refine ⟨_, d', rfl, hd, ⟨hl.1, hl.2.1.trans ?_, hl.2.2⟩, rfl⟩
    dsimp only
    by_cases e : a.im = 0 <;> simp [e]
  | gate g =>
    simp only [DAct.effect]
    by_cases hv : Buildable g
    · rw [if_pos hv]
      obtain ⟨hok, u, hu⟩ := hv
      have hc : dactCall (.gate g) = .ok (.gate u) := by simp only [dactCall]; rw [hu]; rfl
      by_cases hs : ActsOnDensity g ∧ ∀ q ∈ qubitsOf g, q < n
      · rw [if_pos hs]
        have hs' : StandardDesc g := by cases g <;> first | trivial | exact hs.1.elim
        obtain ⟨d', hd, -, h5, h6⟩ := C50_gate (d := ⟨n, fl, ρ⟩) hs' hu hn hs.2
        have hf : d'.hermitian = fl := by
          obtain ⟨w, hw, -, e, -⟩ := hd
          simp only [DMOp.exec] at hw
          obtain ⟨l, -, hw⟩ := bind_ok hw
          cases hw
          exact e
        exact ⟨_, d', hc, hd, ⟨h5, hf, fun p hp => (h6 p hp).trans (conjugatedBy_congr h64 _ h3 p)⟩, rfl⟩
      · rw [if_neg hs]
        obtain ⟨⟨msg, hm⟩, -⟩ := C50_throws (d := ⟨n, fl, ρ⟩) hok hu h64 (fun h => hs ⟨by
          have := h.1
          cases g <;> first | trivial | exact this.elim, h.2⟩)
        exact ⟨_, msg, hc, hm⟩
    · rw [if_neg hv]; trivial

/-! ## the memory -/

theorem dKernel {h : DHeap} {n v : Nat} (hn : n < 32) (hv : v < h.next) (qv : h.qubits v = n) (body : U64 → U64 → Prog DAddr ℂ Unit)
    (hw : ∀ i j, InMat (2 ^ n) (i, j) → (body i j).Within2 (· = (v, (i, j))) (fun a => h.Valid a ∧ a.1 ≠ v)) (f : U64 × U64 → ℂ)
    (he : ∀ i j, InMat (2 ^ n) (i, j) → (body i j).exec h.cell (v, (i, j)) = f (i, j)) (h' : DHeap) :
    DHeapRuns h (pairPool (2 ^ n) body) h' ↔ h' = h.write v (setCells (2 ^ n) f fun p => h.cell (v, p)) := by
  generalize hdim : 2 ^ n = dim at *
  have hd : dim < 2 ^ 32 := hdim ▸ Nat.pow_lt_pow_right (by norm_num) hn
  have hN : dim * dim < 2 ^ 64 := by
    calc dim * dim < 2 ^ 32 * 2 ^ 32 := Nat.mul_lt_mul'' hd hd
      _ = 2 ^ 64 := by norm_num
  have hd' : dim < 2 ^ 64 := by omega
  have hb : ∀ g : Fin ((dim * dim) % 2 ^ 64), g.val / dim < dim ∧ g.val % dim < dim := fun g => pair_div hN g
  have hV : ∀ k, k < dim → (BitVec.ofNat 64 k).toNat = k := fun k hk => Verif.toNat_ofNat_lt (by omega)
  have hcell : ∀ g : Fin ((dim * dim) % 2 ^ 64), InMat dim (BitVec.ofNat 64 (g.val / dim), BitVec.ofNat 64 (g.val % dim)) := by
    intro g
    refine ⟨?_, ?_⟩
    · show (BitVec.ofNat 64 _).toNat < _; rw [hV _ (hb g).1]; exact (hb g).1
    · show (BitVec.ofNat 64 _).toNat < _; rw [hV _ (hb g).2]; exact (hb g).2
  have hitem : ∀ g, pairPool dim body g = body (BitVec.ofNat 64 (g.val / dim)) (BitVec.ofNat 64 (g.val % dim)) := by
    intro g
    have hg : g.val < 2 ^ 64 := lt_trans g.isLt (Nat.mod_lt _ (by norm_num))
    show body _ _ = _
    rw [ofNat_div _ _ hg hd', ofNat_mod _ _ hg hd']
  have hr : Runs h.Valid (pairPool dim body) h.cell (h.write v (setCells dim f fun p => h.cell (v, p))).cell := by
    refine runs_of_shared _ _ _ _ (fun g a => a = (v, (BitVec.ofNat 64 (g.val / dim), BitVec.ofNat 64 (g.val % dim))))
      (fun a => h.Valid a ∧ a.1 ≠ v) ?_ ?_ ?_ ?_ ?_ ?_ ?_
    · rintro g g' p rfl e
      have e := (Prod.ext_iff.1 e).2
      have h1 := congrArg BitVec.toNat (Prod.ext_iff.1 e).1
      have h2 := congrArg BitVec.toNat (Prod.ext_iff.1 e).2
      dsimp only at h1 h2
      rw [hV _ (hb g).1, hV _ (hb g').1] at h1
      rw [hV _ (hb g).2, hV _ (hb g').2] at h2
      exact Fin.ext (div_mod_inj h1 h2)
    · rintro g a rfl h2; exact h2.2 rfl
    · rintro g a rfl
      refine ⟨hv, ?_⟩
      dsimp only
      rw [qv, hdim]
      exact hcell g
    · intro a ha; exact ha.1
    · intro g; rw [hitem]; exact hw _ _ (hcell g)
    · rintro g a rfl
      rw [hitem, he _ _ (hcell g)]
      show (if v = v then _ else _) = _
      rw [if_pos rfl]
      exact setCells_in (hcell g).1 (hcell g).2
    · intro a ha
      show (if a.1 = v then _ else _) = _
      by_cases e : a.1 = v
      · rw [if_pos e]
        show (if _ then _ else _) = _
        rw [if_neg]
        · rw [← e]
        · rintro ⟨h1, h2⟩
          obtain ⟨g, e1, e2⟩ := pair_surj hN h1 h2
          refine ha g ?_
          rw [e1, e2]
          obtain ⟨b, p⟩ := a
          simp only at e
          subst e
          exact Prod.ext rfl (Prod.ext (by simp) (by simp))
      · rw [if_neg e]
  constructor
  · rintro ⟨h1, h2, h3⟩
    have := Runs.unique h1 hr
    cases h'
    dsimp only at h2 h3 this
    rw [h2, h3, this]
    rfl
  · rintro rfl
    exact ⟨hr, rfl, rfl⟩

theorem dCopy_iff {h : DHeap} {n v u : Nat} (hn : n < 32) (hv : v < h.next) (qv : h.qubits v = n) (hu : u < h.next) (qu : h.qubits u = n)
    (h' : DHeap) : DHeapRuns h (dCopy (2 ^ n) v u) h' ↔ h' = h.write v (setCells (2 ^ n) (fun p => h.cell (u, p)) fun p => h.cell (v, p)) := by
  refine dKernel hn hv qv _ (fun i j hij => ?_) _ (fun i j hij => ?_) h'
  · refine ⟨?_, fun _ => ⟨rfl, trivial⟩⟩
    by_cases e : u = v
    · subst e; exact Or.inl rfl
    · exact Or.inr ⟨⟨hu, by dsimp only; rw [qu]; exact hij⟩, e⟩
  · exact Function.update_self _ _ _

theorem dAxpy_iff {h : DHeap} {n v u : Nat} (hn : n < 32) (hv : v < h.next) (qv : h.qubits v = n) (hu : u < h.next) (qu : h.qubits u = n)
    (a : ℂ) (h' : DHeap) : DHeapRuns h (dAxpy (2 ^ n) v a u) h' ↔
      h' = h.write v (setCells (2 ^ n) (fun p => h.cell (v, p) + a * h.cell (u, p)) fun p => h.cell (v, p)) := by
  refine dKernel hn hv qv _ (fun i j hij => ?_) _ (fun i j hij => ?_) h'
  · refine ⟨Or.inl rfl, fun _ => ⟨?_, fun _ => ⟨rfl, trivial⟩⟩⟩
    by_cases e : u = v
    · subst e; exact Or.inl rfl
    · exact Or.inr ⟨⟨hu, by dsimp only; rw [qu]; exact hij⟩, e⟩
  · exact Function.update_self _ _ _

/-! ## all objects -/

/-- the world holds the objects of `s` -/
structure DRel (w : DWorld) (s : DStore) : Prop where
  next : w.heap.next = s.count
  obj : ∀ x, w.obj x = (s.obj x).map fun o => ⟨s.qubits o.1, o.2, o.1⟩
  inside : ∀ x o, s.obj x = some o → o.1 < s.count
  qubits : ∀ c, c < s.count → w.heap.qubits c = s.qubits c
  small : ∀ c, c < s.count → s.qubits c < 32
  vals : ∀ c, c < s.count → ∀ p, CellOf (s.qubits c) p → w.heap.cell (c, p) = s.elem c p

theorem DRel.empty : DRel .empty .empty :=
  ⟨rfl, fun _ => rfl, fun _ _ h => (by cases h), fun _ h => absurd h (Nat.not_lt_zero _), fun _ h => absurd h (Nat.not_lt_zero _),
    fun _ h => absurd h (Nat.not_lt_zero _)⟩

theorem DRel.handle {w s} (H : DRel w s) {x : String} {c : Nat} {f : Bool} (h : s.obj x = some (c, f)) :
    w.obj x = some ⟨s.qubits c, f, c⟩ := by rw [H.obj, h]; rfl

theorem DRel.looks {w s} (H : DRel w s) {c : Nat} (hc : c < s.count) (f : Bool) :
    LooksLike ((⟨s.qubits c, f, c⟩ : DHandle).view w.heap) (s.val c f) := ⟨rfl, rfl, H.vals c hc⟩

theorem DRel.fresh {w s} (H : DRel w s) (junk) (x : String) (v : DVal) (hn : v.n < 32) (raw : U64 × U64 → ℂ)
    (hr : ∀ p, CellOf v.n p → raw p = v.elem p) :
    DRel (w.put ((w.heap.alloc junk v.n).write w.heap.next raw) x ⟨v.n, v.flag, w.heap.next⟩) (s.fresh x v) := by
  have hnx := H.next
  refine ⟨?_, ?_, ?_, ?_, ?_, ?_⟩
  · show w.heap.next + 1 = s.count + 1
    rw [hnx]
  · intro y
    show Function.update w.obj x _ y = (Function.update s.obj x _ y).map _
    by_cases e : y = x
    · subst e
      rw [Function.update_self, Function.update_self]
      show some _ = some _
      simp [DStore.fresh, hnx]
    · rw [Function.update_of_ne e, Function.update_of_ne e, H.obj]
      cases ho : s.obj y with
      | none => rfl
      | some o =>
        have := H.inside y o ho
        show some _ = some _
        simp [DStore.fresh, Function.update_of_ne (show o.1 ≠ s.count by omega)]
  · intro y o ho
    show o.1 < s.count + 1
    by_cases e : y = x
    · subst e
      simp only [DStore.fresh, Function.update_self, Option.some.injEq] at ho
      rw [← ho]; exact Nat.lt_succ_self _
    · simp only [DStore.fresh, Function.update_of_ne e] at ho
      have := H.inside y o ho
      omega
  · intro c hc
    show Function.update w.heap.qubits w.heap.next v.n c = Function.update s.qubits s.count v.n c
    rw [hnx]
    by_cases e : c = s.count
    · subst e; simp
    · rw [Function.update_of_ne e, Function.update_of_ne e]
      exact H.qubits c (by have : c < s.count + 1 := hc; omega)
  · intro c hc
    show Function.update s.qubits s.count v.n c < 32
    by_cases e : c = s.count
    · subst e; simpa using hn
    · rw [Function.update_of_ne e]
      exact H.small c (by have : c < s.count + 1 := hc; omega)
  · intro c hc p hp
    show (if c = w.heap.next then raw p else if c = w.heap.next then _ else w.heap.cell (c, p)) = Function.update s.elem s.count v.elem c p
    have hp : CellOf (Function.update s.qubits s.count v.n c) p := hp
    rw [hnx]
    by_cases e : c = s.count
    · subst e
      rw [Function.update_self] at hp
      rw [if_pos rfl, Function.update_self]
      exact hr p hp
    · rw [Function.update_of_ne e] at hp
      rw [if_neg e, if_neg e, Function.update_of_ne e]
      exact H.vals c (by have : c < s.count + 1 := hc; omega) p hp

theorem DRel.set {w s} (H : DRel w s) {x : String} {c : Nat} (hc : c < s.count) (v : DVal) (raw : U64 × U64 → ℂ)
    (hr : ∀ p, CellOf (s.qubits c) p → raw p = v.elem p) :
    DRel (w.put (w.heap.write c raw) x ⟨s.qubits c, v.flag, c⟩) (s.set x c v) := by
  refine ⟨H.next, ?_, ?_, H.qubits, H.small, ?_⟩
  · intro y
    show Function.update w.obj x _ y = (Function.update s.obj x _ y).map _
    by_cases e : y = x
    · subst e
      rw [Function.update_self, Function.update_self]
      rfl
    · rw [Function.update_of_ne e, Function.update_of_ne e, H.obj]
      rfl
  · intro y o ho
    by_cases e : y = x
    · subst e
      simp only [DStore.set, Function.update_self, Option.some.injEq] at ho
      rw [← ho]; exact hc
    · simp only [DStore.set, Function.update_of_ne e] at ho
      exact H.inside y o ho
  · intro d hd p hp
    show (if d = c then raw p else w.heap.cell (d, p)) = Function.update s.elem c v.elem d p
    by_cases e : d = c
    · subst e
      rw [if_pos rfl, Function.update_self]
      exact hr p hp
    · rw [if_neg e, Function.update_of_ne e]
      exact H.vals d hd p hp

theorem DRel.alias {w s} (H : DRel w s) {x : String} {c : Nat} (hc : c < s.count) (f : Bool) :
    DRel (w.put w.heap x ⟨s.qubits c, f, c⟩) { s with obj := Function.update s.obj x (some (c, f)) } := by
  refine ⟨H.next, ?_, ?_, H.qubits, H.small, H.vals⟩
  · intro y
    show Function.update w.obj x _ y = (Function.update s.obj x _ y).map _
    by_cases e : y = x
    · subst e
      rw [Function.update_self, Function.update_self]
      rfl
    · rw [Function.update_of_ne e, Function.update_of_ne e, H.obj]
  · intro y o ho
    by_cases e : y = x
    · subst e
      simp only [Function.update_self, Option.some.injEq] at ho
      rw [← ho]; exact hc
    · simp only [Function.update_of_ne e] at ho
      exact H.inside y o ho

theorem act_iff {w : DWorld} {x : String} {v : DHandle} {op : DMOp} {d' : DM} (h : (v.view w.heap).Does op d') (w' : DWorld) (f : Option Fault) :
    w.Act x v (.ok op) w' f ↔ w' = w.put (w.heap.write v.buf d'.raw) x ⟨v.n, d'.hermitian, v.buf⟩ ∧ f = none := by
  obtain ⟨u, hu, -, h2, h3⟩ := h
  unfold DWorld.Act
  dsimp only
  rw [hu]
  dsimp only
  rw [h2]
  constructor
  · rintro ⟨raw, hr, h4, h5⟩
    rw [MRuns.unique hr h3] at h4
    exact ⟨h4, h5⟩
  · rintro ⟨h4, h5⟩
    exact ⟨_, h3, h4, h5⟩

theorem write_alloc_view (junk) (h : DHeap) (n : Nat) (f : Bool) : (⟨n, f, h.next⟩ : DHandle).view (h.alloc junk n) = ⟨n, f, junk h.next⟩ := by
  simp [DHandle.view, DHeap.alloc]

theorem construct_step {w s} (H : DRel w s) (junk) (x : String) {n : Nat} (hn : n < 32) {op : DMOp} {v : DVal}
    (h : ∃ d', DM.Does ⟨n, true, junk w.heap.next⟩ op d' ∧ LooksLike d' v) :
    ∃ w1, (∀ w' f, w.Construct junk x n op w' f ↔ w' = w1 ∧ f = none) ∧ DRel w1 (s.fresh x v) := by
  obtain ⟨d', hd, hl⟩ := h
  have en : v.n = n := hl.1.symm.trans (hd.elim fun _ h => h.2.1)
  have hd' : ((⟨n, true, w.heap.next⟩ : DHandle).view (DWorld.mk (w.heap.alloc junk n) w.obj).heap).Does op d' := by
    rw [write_alloc_view]; exact hd
  have hF := H.fresh junk x v (by omega) d'.raw hl.2.2
  rw [en, ← hl.2.1] at hF
  refine ⟨_, fun w' f => ?_, hF⟩
  unfold DWorld.Construct
  rw [if_neg (by omega)]
  exact act_iff hd' w' f

theorem partialTrace_spec {d : DM} {v : DVal} (hn : d.n < 32) (hl : LooksLike d v) (qs : List Nat) :
    (TraceOK v.n qs → (qs = [] ∨ v.n - qs.length < 16) → ∃ r, d.partialTrace qs = .ok r ∧ r.n = v.n - qs.length ∧ r.hermitian = v.flag ∧
      ∀ junk, ∃ raw, MRuns (2 ^ r.n) r.launches junk raw ∧ ∀ p, CellOf r.n p → raw p = partialTraceOf v.n qs v.elem p) ∧
    (¬ TraceOK v.n qs → ∃ msg, d.partialTrace qs = .error (.throw msg)) := by
  obtain ⟨h1, h2, h3⟩ := hl
  refine ⟨?_, fun h => C51_partial_trace_throws (by rw [h1]; exact h)⟩
  rintro ⟨hnd, hq⟩ h16
  rw [← h1] at hq h16
  have key : ∃ r, d.partialTrace qs = .ok r ∧ ∀ junk, ∃ raw, MRuns (2 ^ r.n) r.launches junk raw := by
    by_cases hne : qs = []
    · subst hne
      exact ⟨⟨d.n, d.hermitian, [fillM (2 ^ d.n) d.raw]⟩, by unfold DM.partialTrace; rw [if_pos rfl], fun junk => ⟨_, fillM_runs hn _ _⟩⟩
    · obtain ⟨r, hr, -, -, hrun⟩ := partialTrace_ok hn hne hnd hq (h16.resolve_left hne)
      exact ⟨r, hr, fun junk => ⟨_, hrun junk⟩⟩
  obtain ⟨r, hr, hrun⟩ := key
  have hc : ∀ junk raw, MRuns (2 ^ r.n) r.launches junk raw → _ := fun junk raw hm =>
    partialTrace_cases (d' := ⟨r.n, r.hermitian, raw⟩) hn ⟨r, hr, rfl, rfl, junk, hm⟩ h16
  obtain ⟨raw0, hm0⟩ := hrun fun _ => 0
  obtain ⟨-, -, e1, e2, -⟩ := hc _ _ hm0
  refine ⟨r, hr, by rw [← h1]; exact e1, by rw [← h2]; exact e2, fun junk => ?_⟩
  obtain ⟨raw, hm⟩ := hrun junk
  refine ⟨raw, hm, fun p hp => ?_⟩
  obtain ⟨-, -, -, -, e⟩ := hc _ _ hm
  refine (e p hp).trans ?_
  rw [← h1]
  exact partialTraceOf_congr (by omega) hq (by rw [h1]; exact h3) p

theorem dstep {w s} (H : DRel w s) (junk) (c : DCmd) :
    match s.step Buildable c with
    | .done s' => ∃ w1, (∀ w' f, w.Exec junk c w' f ↔ w' = w1 ∧ f = none) ∧ DRel w1 s'
    | .refused => ∃ msg, ∀ w' f, w.Exec junk c w' f ↔ w' = w ∧ f = some (.throw msg)
    | .unspecified => True := by
  cases c with
  | new x n =>
    simp only [DStore.step]
    by_cases hn : n < 32
    · rw [if_pos hn]
      exact construct_step H junk x hn (looks_fill (d := ⟨n, true, junk w.heap.next⟩) hn rfl fun p _ => basis_eq (n := n) (by omega) (Nat.two_pow_pos n) p)
    · rw [if_neg hn]; trivial
  | ofState x n ψ =>
    simp only [DStore.step]
    by_cases hn : n < 32
    · rw [if_pos hn]
      exact construct_step H junk x hn (looks_fill (d := ⟨n, true, junk w.heap.next⟩) hn (by simp only [DMOp.exec]; rw [if_neg (by simp)]; rfl) fun p _ => rfl)
    · rw [if_neg hn]; trivial
  | same x y =>
    simp only [DStore.step]
    cases hy : s.obj y with
    | none => trivial
    | some o =>
      obtain ⟨c, f⟩ := o
      refine ⟨_, fun w' f' => ?_, H.alias (H.inside y _ hy) f⟩
      simp only [DWorld.Exec]
      rw [H.handle hy]
  | wrap x y claim =>
    simp only [DStore.step]
    cases hy : s.obj y with
    | none => trivial
    | some o =>
      obtain ⟨c, f⟩ := o
      refine ⟨_, fun w' f' => ?_, H.alias (H.inside y _ hy) claim⟩
      simp only [DWorld.Exec]
      rw [H.handle hy]
  | copy x y =>
    simp only [DStore.step]
    cases hy : s.obj y with
    | none => trivial
    | some o =>
      obtain ⟨c, f⟩ := o
      have hc : c < s.count := H.inside y _ hy
      have hn := H.small c hc
      have hnx := H.next
      refine ⟨_, fun w' f' => ?_, H.fresh junk x (s.val c f) hn
        (setCells (2 ^ s.qubits c) (fun p => w.heap.cell (c, p)) (junk w.heap.next)) fun p hp => (if_pos hp).trans (H.vals c hc p hp)⟩
      simp only [DWorld.Exec]
      rw [H.handle hy]
      dsimp only
      have hrun := dCopy_iff (h := w.heap.alloc junk (s.qubits c)) (v := w.heap.next) (u := c) hn (Nat.lt_succ_self _)
        (Function.update_self _ _ _) (by show c < w.heap.next + 1; omega)
        (by
          show Function.update w.heap.qubits w.heap.next _ c = _
          rw [Function.update_of_ne (by omega), H.qubits c hc])
      have e : ∀ b : Nat, (fun p => (w.heap.alloc junk (s.qubits c)).cell (b, p)) = if b = w.heap.next then junk w.heap.next else fun p => w.heap.cell (b, p) := by
        intro b
        funext p
        show (if b = w.heap.next then _ else _) = _
        split <;> rfl
      rw [e, e, if_pos rfl, if_neg (by omega)] at hrun
      constructor
      · rintro ⟨h, hr, h1, h2⟩
        rw [hrun] at hr
        rw [hr] at h1
        exact ⟨h1, h2⟩
      · rintro ⟨h1, h2⟩
        exact ⟨_, (hrun _).2 rfl, h1, h2⟩
  | ptrace x y qs =>
    simp only [DStore.step]
    cases hy : s.obj y with
    | none => trivial
    | some o =>
      obtain ⟨c, f⟩ := o
      have hc : c < s.count := H.inside y _ hy
      have hn := H.small c hc
      have hsp := partialTrace_spec (d := (⟨s.qubits c, f, c⟩ : DHandle).view w.heap) (v := s.val c f) hn (H.looks hc f) qs
      dsimp only
      by_cases ht : TraceOK (s.qubits c) qs
      · rw [if_pos ht]
        by_cases h16 : qs = [] ∨ s.qubits c - qs.length < 16
        · rw [if_pos h16]
          obtain ⟨r, hr, e1, e2, hrun⟩ := hsp.1 ht h16
          obtain ⟨raw, hm, hraw⟩ := hrun (junk w.heap.next)
          have e1 : r.n = s.qubits c - qs.length := e1
          have e2 : r.hermitian = f := e2
          have hF := H.fresh junk x ⟨s.qubits c - qs.length, f, partialTraceOf (s.qubits c) qs (s.elem c)⟩ (by dsimp only; omega) raw
            (by rw [← e1]; exact hraw)
          refine ⟨_, fun w' f' => ?_, hF⟩
          simp only [DWorld.Exec]
          rw [H.handle hy]
          dsimp only
          rw [hr]
          dsimp only
          rw [← e1, ← e2]
          constructor
          · rintro ⟨raw', hr', h1, h2⟩
            rw [MRuns.unique hr' hm] at h1
            exact ⟨h1, h2⟩
          · rintro ⟨h1, h2⟩
            exact ⟨_, hm, h1, h2⟩
        · rw [if_neg h16]; trivial
      · rw [if_neg ht]
        obtain ⟨msg, hm⟩ := hsp.2 ht
        refine ⟨msg, fun w' f' => ?_⟩
        simp only [DWorld.Exec]
        rw [H.handle hy]
        dsimp only
        rw [hm]
  | load x y =>
    simp only [DStore.step]
    cases hx : s.obj x with
    | none => trivial
    | some o =>
      cases hy : s.obj y with
      | none => trivial
      | some o' =>
        obtain ⟨c, f⟩ := o
        obtain ⟨d, g⟩ := o'
        have hc : c < s.count := H.inside x _ hx
        have hd : d < s.count := H.inside y _ hy
        have hnx := H.next
        dsimp only
        by_cases hq : s.qubits c = s.qubits d
        · rw [if_pos hq]
          refine ⟨_, fun w' f' => ?_, H.set (x := x) hc (s.val d g)
            (setCells (2 ^ s.qubits c) (fun p => w.heap.cell (d, p)) fun p => w.heap.cell (c, p)) fun p hp =>
              (if_pos hp).trans (H.vals d hd p (hq ▸ hp))⟩
          simp only [DWorld.Exec]
          rw [H.handle hx, H.handle hy]
          dsimp only
          rw [if_neg (by simpa using hq.symm)]
          have hrun := dCopy_iff (h := w.heap) (v := c) (u := d) (H.small c hc) (by omega) (H.qubits c hc) (by omega) ((H.qubits d hd).trans hq.symm)
          constructor
          · rintro ⟨h, hr, h1, h2⟩
            rw [hrun] at hr
            rw [hr] at h1
            exact ⟨h1, h2⟩
          · rintro ⟨h1, h2⟩
            exact ⟨_, (hrun _).2 rfl, h1, h2⟩
        · rw [if_neg hq]
          refine ⟨"DensityMatrix::load(const DensityMatrix&): Input density matrix size does not match density matrix size.", fun w' f' => ?_⟩
          simp only [DWorld.Exec]
          rw [H.handle hx, H.handle hy]
          dsimp only
          rw [if_pos (fun e => hq e.symm)]
  | add x a y =>
    simp only [DStore.step]
    cases hx : s.obj x with
    | none => trivial
    | some o =>
      cases hy : s.obj y with
      | none => trivial
      | some o' =>
        obtain ⟨c, f⟩ := o
        obtain ⟨d, g⟩ := o'
        have hc : c < s.count := H.inside x _ hx
        have hd : d < s.count := H.inside y _ hy
        have hnx := H.next
        dsimp only
        by_cases hq : s.qubits c = s.qubits d
        · rw [if_pos hq]
          refine ⟨_, fun w' f' => ?_, H.set (x := x) hc ((s.val c f).plus a (s.val d g))
            (setCells (2 ^ s.qubits c) (fun p => w.heap.cell (c, p) + a * w.heap.cell (d, p)) fun p => w.heap.cell (c, p)) fun p hp =>
              (if_pos hp).trans (by dsimp only; rw [H.vals c hc p hp, H.vals d hd p (hq ▸ hp)]; rfl)⟩
          simp only [DWorld.Exec]
          rw [H.handle hx, H.handle hy]
          dsimp only
          rw [if_neg (by simpa using hq.symm)]
          have hrun := dAxpy_iff (h := w.heap) (v := c) (u := d) (H.small c hc) (by omega) (H.qubits c hc) (by omega) ((H.qubits d hd).trans hq.symm) a
          have hfl : (if g = false ∨ a.im ≠ 0 then false else f) = ((s.val c f).plus a (s.val d g)).flag := by
            show _ = (f && g && decide (a.im = 0))
            by_cases e : a.im = 0 <;> cases g <;> simp [e]
          rw [hfl]
          constructor
          · rintro ⟨h, hr, h1, h2⟩
            rw [hrun] at hr
            rw [hr] at h1
            exact ⟨h1, h2⟩
          · rintro ⟨h1, h2⟩
            exact ⟨_, (hrun _).2 rfl, h1, h2⟩
        · rw [if_neg hq]
          refine ⟨"DensityMatrix::add_density_matrix_with_coef: Input density matrix size does not match density matrix size.", fun w' f' => ?_⟩
          simp only [DWorld.Exec]
          rw [H.handle hx, H.handle hy]
          dsimp only
          rw [if_pos (fun e => hq e.symm)]
  | act x a =>
    simp only [DStore.step]
    cases hx : s.obj x with
    | none => trivial
    | some o =>
      obtain ⟨c, f⟩ := o
      have hc : c < s.count := H.inside x _ hx
      have hl := act_looks (d := (⟨s.qubits c, f, c⟩ : DHandle).view w.heap) (H.small c hc) (H.looks hc f) a
      dsimp only
      cases he : a.effect Buildable (s.val c f) with
      | unspecified => trivial
      | refused =>
        rw [he] at hl
        obtain ⟨op, msg, h1, h2⟩ := hl
        refine ⟨msg, fun w' f' => ?_⟩
        simp only [DWorld.Exec]
        rw [H.handle hx, h1]
        simp only [DWorld.Act]
        rw [h2]
      | done v' =>
        rw [he] at hl
        obtain ⟨op, d', h1, h2, h3, h4⟩ := hl
        have h4 : v'.n = s.qubits c := h4
        have hS := H.set (x := x) hc v' d'.raw (by rw [← h4]; exact h3.2.2)
        refine ⟨_, fun w' f' => ?_, hS⟩
        simp only [DWorld.Exec]
        rw [H.handle hx, h1, ← h3.2.1]
        exact act_iff h2 w' f'

theorem dexecs (junk) : ∀ (P : List DCmd) {w s}, DRel w s →
    match s.run Buildable P with
    | .finished s' => ∃ w1, (∀ w' f, w.Execs junk P w' f ↔ w' = w1 ∧ f = none) ∧ DRel w1 s'
    | .stopped s' => ∃ w1 msg, (∀ w' f, w.Execs junk P w' f ↔ w' = w1 ∧ f = some (.throw msg)) ∧ DRel w1 s'
    | .unspecified => True
  | [], w, s, H => ⟨w, fun _ _ => Iff.rfl, H⟩
  | c :: cs, w, s, H => by
    have hs := dstep H junk c
    simp only [DStore.run]
    cases hc : s.step Buildable c with
    | unspecified => trivial
    | refused =>
      rw [hc] at hs
      obtain ⟨msg, h1⟩ := hs
      refine ⟨w, msg, fun w' f => ?_, H⟩
      simp only [DWorld.Execs]
      constructor
      · rintro ⟨w1, f1, h2, h3⟩
        obtain ⟨rfl, rfl⟩ := (h1 w1 f1).1 h2
        exact h3
      · rintro ⟨rfl, rfl⟩
        exact ⟨w', some _, (h1 _ _).2 ⟨rfl, rfl⟩, rfl, rfl⟩
    | done s' =>
      rw [hc] at hs
      obtain ⟨w1, h1, H1⟩ := hs
      have hk : ∀ w' f, w.Execs junk (c :: cs) w' f ↔ w1.Execs junk cs w' f := by
        intro w' f
        simp only [DWorld.Execs]
        constructor
        · rintro ⟨w2, f1, h2, h3⟩
          obtain ⟨rfl, rfl⟩ := (h1 w2 f1).1 h2
          exact h3
        · intro h3
          exact ⟨w1, none, (h1 _ _).2 ⟨rfl, rfl⟩, h3⟩
      have ih := dexecs junk cs H1
      dsimp only
      cases hr : s'.run Buildable cs with
      | unspecified => trivial
      | finished s'' =>
        rw [hr] at ih
        obtain ⟨w2, h2, H2⟩ := ih
        exact ⟨w2, fun w' f => (hk w' f).trans (h2 w' f), H2⟩
      | stopped s'' =>
        rw [hr] at ih
        obtain ⟨w2, msg, h2, H2⟩ := ih
        exact ⟨w2, msg, fun w' f => (hk w' f).trans (h2 w' f), H2⟩

/-! ## objects that share nothing -/

/-- the objects of `s` denote different matrices and have the values `vs` -/
structure DApart (s : DStore) (vs : DValues) : Prop where
  inside : ∀ x o, s.obj x = some o → o.1 < s.count
  apart : ∀ x y o o', s.obj x = some o → s.obj y = some o' → o.1 = o'.1 → x = y
  vals : ∀ x, vs x = (s.obj x).map fun o => s.val o.1 o.2

theorem DApart.empty : DApart .empty fun _ => none :=
  ⟨fun _ _ h => (by cases h), fun _ _ _ _ h => (by cases h), fun _ => rfl⟩

theorem DApart.val {s vs} (A : DApart s vs) {x : String} {c : Nat} {f : Bool} (h : s.obj x = some (c, f)) : vs x = some (s.val c f) := by
  rw [A.vals, h]; rfl

theorem DApart.fresh {s vs} (A : DApart s vs) (x : String) (v : DVal) : DApart (s.fresh x v) (Function.update vs x (some v)) := by
  refine ⟨?_, ?_, ?_⟩
  · intro y o ho
    show o.1 < s.count + 1
    by_cases e : y = x
    · subst e
      simp only [DStore.fresh, Function.update_self, Option.some.injEq] at ho
      rw [← ho]; exact Nat.lt_succ_self _
    · simp only [DStore.fresh, Function.update_of_ne e] at ho
      have := A.inside y o ho
      omega
  · intro y z o o' hy hz e
    by_cases e1 : y = x
    · by_cases e2 : z = x
      · rw [e1, e2]
      · subst e1
        simp only [DStore.fresh, Function.update_self, Option.some.injEq] at hy
        simp only [DStore.fresh, Function.update_of_ne e2] at hz
        have := A.inside z o' hz
        rw [← hy] at e
        dsimp only at e
        omega
    · by_cases e2 : z = x
      · subst e2
        simp only [DStore.fresh, Function.update_self, Option.some.injEq] at hz
        simp only [DStore.fresh, Function.update_of_ne e1] at hy
        have := A.inside y o hy
        rw [← hz] at e
        dsimp only at e
        omega
      · simp only [DStore.fresh, Function.update_of_ne e1] at hy
        simp only [DStore.fresh, Function.update_of_ne e2] at hz
        exact A.apart y z o o' hy hz e
  · intro y
    by_cases e : y = x
    · subst e
      simp [DStore.fresh, DStore.val]
    · simp only [DStore.fresh, Function.update_of_ne e, A.vals]
      cases ho : s.obj y with
      | none => rfl
      | some o =>
        have := A.inside y o ho
        simp [DStore.val, Function.update_of_ne (show o.1 ≠ s.count by omega)]

theorem DApart.set {s vs} (A : DApart s vs) {x : String} {c : Nat} {f : Bool} (hx : s.obj x = some (c, f)) (v : DVal) (hn : v.n = s.qubits c) :
    DApart (s.set x c v) (Function.update vs x (some v)) := by
  have key : ∀ y o, (s.set x c v).obj y = some o → ∃ o', s.obj y = some o' ∧ o'.1 = o.1 := by
    intro y o ho
    by_cases e : y = x
    · subst e
      simp only [DStore.set, Function.update_self, Option.some.injEq] at ho
      exact ⟨_, hx, by rw [← ho]⟩
    · simp only [DStore.set, Function.update_of_ne e] at ho
      exact ⟨o, ho, rfl⟩
  refine ⟨?_, ?_, ?_⟩
  · intro y o ho
    obtain ⟨o', h1, h2⟩ := key y o ho
    rw [← h2]
    exact A.inside y o' h1
  · intro y z o o' hy hz e
    obtain ⟨p, h1, h2⟩ := key y o hy
    obtain ⟨p', h1', h2'⟩ := key z o' hz
    exact A.apart y z p p' h1 h1' (by rw [h2, h2', e])
  · intro y
    by_cases e : y = x
    · subst e
      simp [DStore.set, DStore.val, ← hn]
    · simp only [DStore.set, Function.update_of_ne e, A.vals]
      cases ho : s.obj y with
      | none => rfl
      | some o =>
        have : o.1 ≠ c := fun h => e (A.apart y x o (c, f) ho hx h)
        simp [DStore.val, Function.update_of_ne this]

theorem effect_n {valid : GateDesc → Prop} {v v' : DVal} {a : DAct} (h : a.effect valid v = .done v') : v'.n = v.n := by
  cases a <;> simp only [DAct.effect] at h <;> (try split at h) <;> (try split at h) <;>
    first | (injection h with h; rw [← h]) | (exact absurd h (by simp))

theorem apart_step (valid : GateDesc → Prop) {s vs} (A : DApart s vs) (c : DCmd) (hc : ¬ c.Shares) :
    match DValues.step valid vs c with
    | .done vs' => ∃ s', s.step valid c = .done s' ∧ DApart s' vs'
    | .refused => s.step valid c = .refused
    | .unspecified => True := by
  cases c with
  | new x n =>
    simp only [DStore.step, DValues.step]
    by_cases h : n < 32
    · rw [if_pos h, if_pos h]; exact ⟨_, rfl, A.fresh x _⟩
    · rw [if_neg h]; trivial
  | ofState x n ψ =>
    simp only [DStore.step, DValues.step]
    by_cases h : n < 32
    · rw [if_pos h, if_pos h]; exact ⟨_, rfl, A.fresh x _⟩
    · rw [if_neg h]; trivial
  | same x y => exact (hc trivial).elim
  | wrap x y claim => exact (hc trivial).elim
  | copy x y =>
    simp only [DStore.step, DValues.step]
    cases hy : s.obj y with
    | none => rw [A.vals, hy]; trivial
    | some o => rw [A.val hy]; exact ⟨_, rfl, A.fresh x _⟩
  | ptrace x y qs =>
    simp only [DStore.step, DValues.step]
    cases hy : s.obj y with
    | none => rw [A.vals, hy]; trivial
    | some o =>
      rw [A.val hy]
      dsimp only [DStore.val]
      by_cases h : TraceOK (s.qubits o.1) qs
      · rw [if_pos h, if_pos h]
        by_cases h' : qs = [] ∨ s.qubits o.1 - qs.length < 16
        · rw [if_pos h', if_pos h']; exact ⟨_, rfl, A.fresh x _⟩
        · rw [if_neg h']; trivial
      · rw [if_neg h, if_neg h]
  | load x y =>
    simp only [DStore.step, DValues.step]
    cases hx : s.obj x with
    | none => rw [A.vals, hx]; trivial
    | some o =>
      cases hy : s.obj y with
      | none => rw [A.vals y, hy, A.val hx]; trivial
      | some o' =>
        rw [A.val hx, A.val hy]
        dsimp only [DStore.val]
        by_cases h : s.qubits o.1 = s.qubits o'.1
        · rw [if_pos h, if_pos h]
          exact ⟨_, rfl, A.set hx _ h.symm⟩
        · rw [if_neg h, if_neg h]
  | add x a y =>
    simp only [DStore.step, DValues.step]
    cases hx : s.obj x with
    | none => rw [A.vals, hx]; trivial
    | some o =>
      cases hy : s.obj y with
      | none => rw [A.vals y, hy, A.val hx]; trivial
      | some o' =>
        rw [A.val hx, A.val hy]
        dsimp only [DStore.val]
        by_cases h : s.qubits o.1 = s.qubits o'.1
        · rw [if_pos h, if_pos h]
          exact ⟨_, rfl, A.set hx _ rfl⟩
        · rw [if_neg h, if_neg h]
  | act x a =>
    simp only [DStore.step, DValues.step]
    cases hx : s.obj x with
    | none => rw [A.vals, hx]; trivial
    | some o =>
      rw [A.val hx]
      dsimp only
      cases he : a.effect valid (s.val o.1 o.2) with
      | done v => exact ⟨_, rfl, A.set hx _ (effect_n he)⟩
      | refused => rfl
      | unspecified => trivial

theorem apart_run (valid : GateDesc → Prop) : ∀ (P : List DCmd) {s vs}, DApart s vs → (∀ c ∈ P, ¬ c.Shares) →
    match DValues.run valid vs P with
    | .finished vs' => ∃ s', s.run valid P = .finished s' ∧ DApart s' vs'
    | .stopped vs' => ∃ s', s.run valid P = .stopped s' ∧ DApart s' vs'
    | .unspecified => True
  | [], s, vs, A, _ => ⟨s, rfl, A⟩
  | c :: cs, s, vs, A, hP => by
    have hs := apart_step valid A c (hP c (by simp))
    simp only [DStore.run, DValues.run]
    cases hc : DValues.step valid vs c with
    | unspecified => trivial
    | refused => rw [hc] at hs; dsimp only at hs ⊢; rw [hs]; exact ⟨s, rfl, A⟩
    | done vs' =>
      rw [hc] at hs
      obtain ⟨s', h1, A'⟩ := hs
      dsimp only
      rw [h1]
      exact apart_run valid cs A' fun c hc => hP c (by simp [hc])

/-! ## the flag -/

theorem flag_effect {v v' : DVal} {a : DAct} (hn : v.n < 32) (hs : v.flag = true → HermitianOn (2 ^ v.n) v.elem) (ht : a.Truthful v)
    (h : a.effect Buildable v = .done v') : v'.flag = true → HermitianOn (2 ^ v'.n) v'.elem := by
  have hl := act_looks (d := ⟨v.n, v.flag, v.elem⟩) hn ⟨rfl, rfl, fun _ _ => rfl⟩ a
  rw [h] at hl
  obtain ⟨op, d', h1, h2, ⟨e1, e2, e3⟩, -⟩ := hl
  have hh : op.Honest ⟨v.n, v.flag, v.elem⟩ := by
    cases a with
    | gate g =>
      simp only [dactCall] at h1
      obtain ⟨u, hu, h1⟩ := bind_ok h1
      cases h1
      refine ⟨g, ?_, hu⟩
      simp only [DAct.effect] at h
      by_cases hb : Buildable g
      · exact hb.1
      · rw [if_neg hb] at h; cases h
    | _ => cases h1; first | trivial | exact ht
  have ho : ∀ o, op.other? = some o → FlagSound o := by
    intro o ho
    cases a with
    | gate g =>
      simp only [dactCall] at h1
      obtain ⟨u, hu, h1⟩ := bind_ok h1
      cases h1
      cases ho
    | _ => cases h1; cases ho
  obtain ⟨hf, -⟩ := flagSound_step (d := ⟨v.n, v.flag, v.elem⟩) hn hs hh ho h2
  intro hv i j hi hj
  have := hf (e2.trans hv) i j (by rw [e1]; exact hi) (by rw [e1]; exact hj)
  rw [e3 (i, j) ⟨hi, hj⟩, e3 (j, i) ⟨hj, hi⟩] at this
  exact this

/-- all answers of `is_hermitian()` are right, and all sizes are below 32 -/
def Right (vs : DValues) : Prop := ∀ x v, vs x = some v → v.n < 32 ∧ (v.flag = true → HermitianOn (2 ^ v.n) v.elem)

theorem Right.update {vs : DValues} (h : Right vs) (x : String) {v : DVal} (h1 : v.n < 32) (h2 : v.flag = true → HermitianOn (2 ^ v.n) v.elem) :
    Right (Function.update vs x (some v)) := by
  intro y u hu
  by_cases e : y = x
  · subst e
    rw [Function.update_self] at hu
    cases hu
    exact ⟨h1, h2⟩
  · rw [Function.update_of_ne e] at hu
    exact h y u hu

theorem hermitian_basis (dim k : Nat) : HermitianOn dim (basisMatrix k) := by
  intro i j _ _
  unfold basisMatrix
  by_cases h : i.toNat = k ∧ j.toNat = k
  · rw [if_pos h, if_pos h.symm]; simp
  · rw [if_neg h, if_neg (fun h' => h h'.symm)]; simp

theorem hermitian_projector (dim : Nat) (ψ : U64 → ℂ) : HermitianOn dim (projector ψ) := by
  intro i j _ _
  unfold projector
  simp [mul_comm]

theorem right_step {vs vs' : DValues} {c : DCmd} (hr : Right vs) (ht : ∀ x a v, c = .act x a → vs x = some v → a.Truthful v)
    (h : DValues.step Buildable vs c = .done vs') : Right vs' := by
  cases c with
  | new x n =>
    simp only [DValues.step] at h
    by_cases hn : n < 32
    · rw [if_pos hn] at h; cases h
      exact hr.update x hn fun _ => hermitian_basis _ _
    · rw [if_neg hn] at h; cases h
  | ofState x n ψ =>
    simp only [DValues.step] at h
    by_cases hn : n < 32
    · rw [if_pos hn] at h; cases h
      exact hr.update x hn fun _ => hermitian_projector _ _
    · rw [if_neg hn] at h; cases h
  | same x y => cases h
  | wrap x y claim => cases h
  | copy x y =>
    simp only [DValues.step] at h
    cases hy : vs y with
    | none => rw [hy] at h; cases h
    | some v => rw [hy] at h; cases h; exact hr.update x (hr y v hy).1 (hr y v hy).2
  | ptrace x y qs =>
    simp only [DValues.step] at h
    cases hy : vs y with
    | none => rw [hy] at h; cases h
    | some v =>
      rw [hy] at h
      dsimp only at h
      obtain ⟨h1, h2⟩ := hr y v hy
      by_cases hq : TraceOK v.n qs
      · rw [if_pos hq] at h
        split at h
        · cases h
          refine hr.update x (by dsimp only; omega) fun hf i j _ _ => ?_
          have h2 := h2 hf
          dsimp only
          unfold partialTraceOf
          rw [map_sum]
          exact Finset.sum_congr rfl fun k _ => h2 _ _ (jointIndex_lt (by omega) hq.2 _ _) (jointIndex_lt (by omega) hq.2 _ _)
        · cases h
      · rw [if_neg hq] at h; cases h
  | load x y =>
    simp only [DValues.step] at h
    cases hx : vs x with
    | none => rw [hx] at h; cases h
    | some v =>
      cases hy : vs y with
      | none => rw [hx, hy] at h; cases h
      | some u =>
        rw [hx, hy] at h
        dsimp only at h
        split at h
        · cases h; exact hr.update x (hr y u hy).1 (hr y u hy).2
        · cases h
  | add x a y =>
    simp only [DValues.step] at h
    cases hx : vs x with
    | none => rw [hx] at h; cases h
    | some v =>
      cases hy : vs y with
      | none => rw [hx, hy] at h; cases h
      | some u =>
        rw [hx, hy] at h
        dsimp only at h
        split at h
        · next e =>
          cases h
          refine hr.update x (hr x v hx).1 fun hf i j hi hj => ?_
          simp only [DVal.plus, Bool.and_eq_true, decide_eq_true_eq] at hf
          have h1 := (hr x v hx).2 hf.1.1 i j hi hj
          have h2 := (hr y u hy).2 hf.1.2 i j (by rw [← e]; exact hi) (by rw [← e]; exact hj)
          simp only [DVal.plus]
          rw [h1, h2, map_add, map_mul, conj_real hf.2]
        · cases h
  | act x a =>
    simp only [DValues.step] at h
    cases hx : vs x with
    | none => rw [hx] at h; cases h
    | some v =>
      rw [hx] at h
      dsimp only at h
      cases he : a.effect Buildable v with
      | refused => rw [he] at h; cases h
      | unspecified => rw [he] at h; cases h
      | done v' =>
        rw [he] at h
        cases h
        exact hr.update x (by rw [effect_n he]; exact (hr x v hx).1) (flag_effect (hr x v hx).1 (hr x v hx).2 (ht x a v rfl hx) he)

theorem right_run : ∀ (P : List DCmd) {vs : DValues}, Right vs → DValues.Truthful Buildable vs P → ∀ vs',
    (DValues.run Buildable vs P = .finished vs' ∨ DValues.run Buildable vs P = .stopped vs') → Right vs'
  | [], vs, hr, _, vs', h => by
    rcases h with h | h
    · cases h; exact hr
    · cases h
  | c :: cs, vs, hr, ht, vs', h => by
    simp only [DValues.run] at h
    cases hc : DValues.step Buildable vs c with
    | unspecified => rw [hc] at h; rcases h with h | h <;> cases h
    | refused =>
      rw [hc] at h
      rcases h with h | h
      · cases h
      · cases h; exact hr
    | done vs1 =>
      rw [hc] at h
      exact right_run cs (right_step hr ht.1 hc) (ht.2 vs1 hc) vs' h

end Verif.Proofs
