import Verif.Proofs.DensityGates
import Mathlib.Tactic.LinearCombination

/-! # The density-matrix ECR kernel -/

namespace Verif.Proofs
open Verif Verif.Spec Verif.Model
open scoped ComplexConjugate
attribute [-simp] BitVec.getLsbD_eq_getElem

section
variable {A R α β γ : Type}

theorem prog_bind_assoc : ∀ (p : Prog A R α) (f : α → Prog A R β) (g : β → Prog A R γ),
    ((p >>= f) >>= g) = (p >>= fun a => f a >>= g)
  | .pure a, f, g => rfl
  | .read a k, f, g => by
    rw [Prog.bind_read, Prog.bind_read, Prog.bind_read]
    exact congrArg (Prog.read a) (funext fun v => prog_bind_assoc (k v) f g)
  | .write a v k, f, g => by
    rw [Prog.bind_write, Prog.bind_write, Prog.bind_write]
    exact congrArg (Prog.write a v) (prog_bind_assoc k f g)

theorem loadAll_cons (a : A) (as : List A) (k : List R → Prog A R β) :
    (loadAll (a :: as) >>= k) = Prog.read a fun v => loadAll as >>= fun vs => k (v :: vs) := by
  show ((Prog.load a >>= fun v => loadAll as >>= fun vs => Prog.pure (v :: vs)) >>= k) = _
  rw [Prog.bind_load, Prog.bind_read]
  exact congrArg (Prog.read a) (funext fun v => by rw [prog_bind_assoc]; rfl)

theorem loadAll_exec [DecidableEq A] (m : A → R) : ∀ (as : List A) (k : List R → Prog A R β),
    (loadAll as >>= k).exec m = (k (as.map m)).exec m
  | [], k => rfl
  | a :: as, k => by
    rw [loadAll_cons]
    show (loadAll as >>= fun vs => k (m a :: vs)).exec m = _
    rw [loadAll_exec m as]; rfl

theorem loadAll_within {F : A → Prop} : ∀ (as : List A) (k : List R → Prog A R β), (∀ a ∈ as, F a) → (∀ vs, (k vs).Within F) →
    (loadAll as >>= k).Within F
  | [], k, _, h => h []
  | a :: as, k, hF, h => by
    rw [loadAll_cons]
    exact ⟨hF a (by simp), fun v => loadAll_within as _ (fun x hx => hF x (by simp [hx])) (fun vs => h _)⟩

theorem storeAll_within {F : A → Prop} : ∀ (ps : List (A × R)), (∀ p ∈ ps, F p.1) → (storeAll ps).Within F
  | [], _ => trivial
  | p :: ps, hF => ⟨hF p (by simp), storeAll_within ps fun q hq => hF q (by simp [hq])⟩

theorem storeAll_other [DecidableEq A] : ∀ (ps : List (A × R)) (m : A → R) (a : A), (∀ p ∈ ps, p.1 ≠ a) → (storeAll ps).exec m a = m a
  | [], _, _, _ => rfl
  | p :: ps, m, a, h => by
    show (storeAll ps).exec (Function.update m p.1 p.2) a = m a
    rw [storeAll_other ps _ a fun q hq => h q (by simp [hq]), Function.update_of_ne (Ne.symm (h p (by simp)))]

theorem storeAll_exec [DecidableEq A] : ∀ (ps : List (A × R)) (m : A → R), (ps.map Prod.fst).Nodup →
    ∀ p ∈ ps, (storeAll ps).exec m p.1 = p.2
  | [], _, _, p, hp => by cases hp
  | p0 :: ps, m, hnd, p, hp => by
    show (storeAll ps).exec (Function.update m p0.1 p0.2) p.1 = p.2
    rw [List.map_cons, List.nodup_cons] at hnd
    rcases List.mem_cons.1 hp with rfl | hp
    · rw [storeAll_other _ _ _ fun q hq e => hnd.1 (List.mem_map.2 ⟨q, hq, e⟩), Function.update_self]
    · exact storeAll_exec ps _ hnd.2 p hp

variable [Zero R] [Add R] [Mul R]

theorem matBody_within {F : A → Prop} (cells : List A) (E : Nat → Nat → R) (h : ∀ a ∈ cells, F a) : (matBody cells E).Within F := by
  unfold matBody
  refine loadAll_within _ _ h fun vs => storeAll_within _ ?_
  intro p hp
  rw [List.mem_map] at hp
  obtain ⟨q, hq, rfl⟩ := hp
  obtain ⟨a, i⟩ := q
  rw [List.mk_mem_zipIdx_iff_getElem?] at hq
  exact h _ (List.mem_of_getElem? hq)

theorem matBody_exec [DecidableEq A] (cells : List A) (E : Nat → Nat → R) (hnd : cells.Nodup) (m : A → R) {i : Nat} {a : A}
    (hi : cells[i]? = some a) :
    (matBody cells E).exec m a = (cells.map m).zipIdx.foldl (fun sum q => sum + E i q.2 * q.1) 0 := by
  unfold matBody
  rw [loadAll_exec]
  refine storeAll_exec _ m ?_ (a, _) ?_
  · rw [List.map_map]
    have : (Prod.fst ∘ fun p : A × Nat => (p.1, (cells.map m).zipIdx.foldl (fun sum q => sum + E p.2 q.2 * q.1) 0)) = Prod.fst := rfl
    rw [this, List.zipIdx_map_fst]  
    exact hnd
  · rw [List.mem_map]
    exact ⟨(a, i), List.mk_mem_zipIdx_iff_getElem?.2 hi, rfl⟩

theorem loadAll_map {A' : Type} (f : A → A') : ∀ (as : List A) (k : List R → Prog A R β) (k' : List R → Prog A' R β),
    (∀ vs, k' vs = (k vs).mapAddr f) → (loadAll (as.map f) >>= k') = (loadAll as >>= k).mapAddr f
  | [], k, k', h => h []
  | a :: as, k, k', h => by
    rw [List.map_cons, loadAll_cons, loadAll_cons]
    exact congrArg (Prog.read (f a)) (funext fun v => loadAll_map f as _ _ fun vs => h _)

theorem storeAll_map {A' : Type} (f : A → A') : ∀ ps : List (A × R),
    storeAll (ps.map fun p => (f p.1, p.2)) = (storeAll ps).mapAddr f
  | [] => rfl
  | p :: ps => congrArg (Prog.write (f p.1) p.2) (storeAll_map f ps)

theorem matBody_map {A' : Type} (f : A → A') (cells : List A) (E : Nat → Nat → R) :
    matBody (cells.map f) E = (matBody cells E).mapAddr f := by
  unfold matBody
  refine loadAll_map f cells _ _ fun vs => ?_
  rw [← storeAll_map]
  congr 1
  rw [List.zipIdx_map, List.map_map, List.map_map]
  rfl

end

theorem dmEcrMatrix_eq {i j : Nat} (hi : i < 4) (hj : j < 4) : dmEcrMatrix i j = ecrMat i j := by
  obtain ⟨⟨a0, a1, a2, a3⟩, ⟨b0, b1, b2, b3⟩, ⟨c0, c1, c2, c3⟩, ⟨d0, d1, d2, d3⟩⟩ := ecrMat_entries
  have hi : i = 0 ∨ i = 1 ∨ i = 2 ∨ i = 3 := by omega
  have hj : j = 0 ∨ j = 1 ∨ j = 2 ∨ j = 3 := by omega
  rcases hi with rfl | rfl | rfl | rfl <;> rcases hj with rfl | rfl | rfl | rfl <;>
    simp only [a0, a1, a2, a3, b0, b1, b2, b3, c0, c1, c2, c3, d0, d1, d2, d3, dmEcrMatrix] <;>
    apply Complex.ext <;> simp

section
variable {n : Nat} {c v pt pc : U64} {cs : List (Nat × Bool)} {a b : Nat}

/-- one pass of the controlled kernel -/
theorem ecrPass_spec (h : MasksOK 1 n (pt ||| pc) c v) (ha : IsBit pc a) (hb : IsBit pt b) (hne : a ≠ b)
    (hcs : ∀ j : U64, j &&& c = v ↔ CtrlOK cs j) (E U : Nat → Nat → ℂ) (hU : ∀ i j, i < 4 → j < 4 → U i j = E i j) (m : U64 → ℂ) :
    Runs (InState (1 * 2 ^ n)) (parallelFor (workItems (1 * 2 ^ n) (pt ||| pc ||| c))
        (fun it => matBody (quadOf (insertZero it (pt ||| pc ||| c) ||| v) pc pt) E)) m
      (onState (1 * 2 ^ n) (applyMat [a, b] U cs) m) := by
  have hnd : ∀ x, Distinct4 x pc pt → (quadOf x pc pt).Nodup := by
    intro x d
    simp [quadOf, d.d01, d.d02, d.d03, d.d12, d.d13, d.d23]
  have hex : ∀ x, Distinct4 x pc pt → ∀ i y, (quadOf x pc pt)[i]? = some y → i < 4 →
      (matBody (quadOf x pc pt) E).exec m y =
        U i 0 * m x + U i 1 * m (x ||| pc) + U i 2 * m (x ||| pt) + U i 3 * m (x ||| pc ||| pt) := by
    intro x d i y hy hi
    rw [matBody_exec _ _ (hnd x d) m hy]
    simp [quadOf, hU i _ hi]
  refine twoTarget_spec (BitVec.or_comm pt pc) h ha hb hne cs hcs (fun x => matBody (quadOf x pc pt) E) U m ?_ ?_ ?_ ?_ ?_
  · intro x _
    exact matBody_within _ _ (by simp [quadOf])
  · exact fun x d => hex x d 0 x rfl (by omega)
  · exact fun x d => hex x d 1 _ rfl (by omega)
  · exact fun x d => hex x d 2 _ rfl (by omega)
  · exact fun x d => hex x d 3 _ rfl (by omega)

/-- the cells of a block of two targets -/
def ecrCells (pc pt b : U64) : Fin 4 → U64 := ![b, b ||| pc, b ||| pt, b ||| pc ||| pt]

theorem ecrBlock_exec (E : Nat → Nat → ℂ) (r c : Fin 4 → U64) (M : U64 × U64 → ℂ) (hr : Function.Injective r) (hc : Function.Injective c)
    (i j : Fin 4) :
    (matBody ([r 0, r 1, r 2, r 3].flatMap fun x => [c 0, c 1, c 2, c 3].map fun y => (x, y))
      (fun y x => E (y >>> 2) (x >>> 2) * conj (E (y &&& 3) (x &&& 3)))).exec M (r i, c j) =
      ∑ y : Fin 4, conj (E j y) * ∑ x : Fin 4, E i x * M (r x, c y) := by
  have hl : [r 0, r 1, r 2, r 3].flatMap (fun x => [c 0, c 1, c 2, c 3].map fun y => (x, y)) =
      [(r 0, c 0), (r 0, c 1), (r 0, c 2), (r 0, c 3), (r 1, c 0), (r 1, c 1), (r 1, c 2), (r 1, c 3),
       (r 2, c 0), (r 2, c 1), (r 2, c 2), (r 2, c 3), (r 3, c 0), (r 3, c 1), (r 3, c 2), (r 3, c 3)] := rfl
  have hnd : ([r 0, r 1, r 2, r 3].flatMap fun x => [c 0, c 1, c 2, c 3].map fun y => (x, y)).Nodup := by
    rw [hl]
    simp [hr.eq_iff, hc.eq_iff]
  have hidx : ([r 0, r 1, r 2, r 3].flatMap fun x => [c 0, c 1, c 2, c 3].map fun y => (x, y))[i.val * 4 + j.val]? = some (r i, c j) := by
    fin_cases i <;> fin_cases j <;> rfl
  have h1 : (i.val * 4 + j.val) >>> 2 = i.val := by rw [Nat.shiftRight_eq_div_pow]; omega
  have h2 : (i.val * 4 + j.val) &&& 3 = j.val := by
    have := Nat.and_two_pow_sub_one_eq_mod (i.val * 4 + j.val) 2
    rw [show 2 ^ 2 - 1 = 3 from rfl] at this
    rw [this]; omega
  rw [matBody_exec _ _ hnd M hidx, hl]
  simp only [h1, h2]
  generalize i.val = i' 
  generalize j.val = j'
  simp only [List.map_cons, List.map_nil, List.zipIdx_cons, List.zipIdx_nil, List.foldl_cons, List.foldl_nil, Nat.zero_add, Nat.reduceAdd,
    Nat.reduceShiftRight, Nat.reduceAnd, Fin.sum_univ_four]
  simp only [show ((0 : Fin 4) : Nat) = 0 from rfl, show ((1 : Fin 4) : Nat) = 1 from rfl, show ((2 : Fin 4) : Nat) = 2 from rfl,
    show ((3 : Fin 4) : Nat) = 3 from rfl, Nat.zero_shiftRight, Nat.zero_and]
  ring

theorem ecrCells_eq (ha : IsBit pc a) (hb : IsBit pt b) {x : U64} (hne : a ≠ b)
    (hxa : x.getLsbD a = false) (hxb : x.getLsbD b = false) (i : Fin 4) :
    ecrCells pc pt x i = ctCell b a x (decide (i.val % 2 = 1)) (decide (2 ≤ i.val)) := by
  have e0 : setBit x b false = x := by have := setBit_self x hb.1; rwa [hxb] at this
  have e1 : setBit x a false = x := by have := setBit_self x ha.1; rwa [hxa] at this
  have e2 : ∀ y : Bool, setBit (setBit x a y) b false = setBit x a y := by
    intro y; rw [setBit_comm _ ha.1 hb.1 hne, e0]
  unfold ecrCells ctCell
  fin_cases i <;> simp [or_bit_eq ha, or_bit_eq hb, e0, e1, e2]

theorem ctCell_set2 (ha : IsBit pc a) (hb : IsBit pt b) (hne : a ≠ b) (x : U64) (u w u' w' : Bool) :
    setBit (setBit (ctCell b a x u w) a u') b w' = ctCell b a x u' w' := by
  unfold ctCell
  rw [setBit_comm _ ha.1 hb.1 hne u w, setBit_setBit _ ha.1, setBit_comm _ hb.1 ha.1 (Ne.symm hne), setBit_setBit _ hb.1]

theorem dmEcr_spec (h : MasksOK 1 n (pt ||| pc) c v) (hn : n < 32) (ha : IsBit pc a) (hb : IsBit pt b) (hne : a ≠ b)
    (hcs : ∀ j : U64, j &&& c = v ↔ CtrlOK cs j) (ρ : U64 × U64 → ℂ) :
    MRuns (2 ^ n) (dmEcr pt pc c v (2 ^ n)) ρ (onMatrix (2 ^ n) (applyMat [a, b] ecrMat cs) ρ) := by
  have hlt : ∀ i, (pt ||| pc).getLsbD i = true → i < n := by
    intro i hi
    by_contra hge
    rw [h.t_high (i := i) (by omega)] at hi
    cases hi
  have hla : a < n := hlt a (by rw [BitVec.getLsbD_or, ha.2]; simp)
  have hlb : b < n := hlt b (by rw [BitVec.getLsbD_or, hb.2]; simp)
  unfold dmEcr
  dsimp only
  split
  · next hc =>
    subst hc
    obtain rfl := v_zero h
    simp only [or_zero']
    rw [ctrl_nil hcs]
    have hbit : ∀ x, IsBase (2 ^ n) (pt ||| pc) 0 0 x → x.getLsbD a = false ∧ x.getLsbD b = false := fun x hx =>
      ⟨hx.target a (by rw [BitVec.getLsbD_or, ha.2]; simp), hx.target b (by rw [BitVec.getLsbD_or, hb.2]; simp)⟩
    refine block_spec h hn (applyMat [a, b] ecrMat []) (ecrCells pc pt) (fun i x => dmEcrMatrix i x)
      (fun r c => matBody ([r 0, r 1, r 2, r 3].flatMap fun x => [c 0, c 1, c 2, c 3].map fun y => (x, y))
        (fun y x => dmEcrMatrix (y >>> 2) (x >>> 2) * conj (dmEcrMatrix (y &&& 3) (x &&& 3)))) ρ ?_ ?_ ?_ ?_ ?_
    · intro x hx j
      obtain ⟨xa, xb⟩ := hbit x hx
      rw [ctCell_block hb ha]
      constructor
      · rintro ⟨u, w, rfl⟩
        refine ⟨match u, w with
          | false, false => 0
          | true, false => 1
          | false, true => 2
          | true, true => 3, ?_⟩
        rw [ecrCells_eq ha hb hne xa xb]
        cases u <;> cases w <;> rfl
      · rintro ⟨i, rfl⟩
        exact ⟨_, _, ecrCells_eq ha hb hne xa xb i⟩
    · intro x hx i j hij
      obtain ⟨xa, xb⟩ := hbit x hx
      rw [ecrCells_eq ha hb hne xa xb, ecrCells_eq ha hb hne xa xb] at hij
      obtain ⟨e1, e2⟩ := ctCell_inj hb.1 ha.1 (Ne.symm hne) hij
      rw [decide_eq_decide] at e1 e2
      apply Fin.ext
      omega
    · intro x hx ψ i
      obtain ⟨xa, xb⟩ := hbit x hx
      have hok : ∀ j : U64, CtrlOK [] j := by intro j p hp; cases hp
      rw [Fin.sum_univ_four]
      simp only [ecrCells_eq ha hb hne xa xb]
      rw [applyMat_two, if_pos (hok _)]
      simp only [ctCell_set2 ha hb hne, ctCell_q hb.1, ctCell_qc hb.1 ha.1 (Ne.symm hne)]
      have hidx : (decide (i.val % 2 = 1)).toNat + 2 * (decide (2 ≤ i.val)).toNat = i.val := by fin_cases i <;> rfl
      rw [hidx, dmEcrMatrix_eq i.isLt (by decide), dmEcrMatrix_eq i.isLt (by decide), dmEcrMatrix_eq i.isLt (by decide),
        dmEcrMatrix_eq i.isLt (by decide)]
      rfl
    · intro r c
      refine matBody_within _ _ ?_
      intro p hp
      simp only [List.mem_flatMap, List.mem_map] at hp
      obtain ⟨x, hx, y, hy, rfl⟩ := hp
      constructor
      · simp only [List.mem_cons, List.not_mem_nil, or_false] at hx
        rcases hx with rfl | rfl | rfl | rfl <;> exact ⟨_, rfl⟩
      · simp only [List.mem_cons, List.not_mem_nil, or_false] at hy
        rcases hy with rfl | rfl | rfl | rfl <;> exact ⟨_, rfl⟩
    · exact fun r c hr hc i j => ecrBlock_exec dmEcrMatrix r c ρ hr hc i j
  · exact two_pass1 hn (ts := [a, b]) (by intro q; simp; omega) (by intro q; simp; omega)
      (fun m => ecrPass_spec h ha hb hne hcs dmEcrMatrix ecrMat (fun i j hi hj => (dmEcrMatrix_eq hi hj).symm) m)
      (fun m => ecrPass_spec h ha hb hne hcs (fun i j => conj (dmEcrMatrix i j)) (fun i j => conj (ecrMat i j))
        (fun i j hi hj => by rw [dmEcrMatrix_eq hi hj]) m)
      (fun _ _ => matBody_map _ _ _) (fun _ _ => matBody_map _ _ _) ρ

end
end Verif.Proofs
