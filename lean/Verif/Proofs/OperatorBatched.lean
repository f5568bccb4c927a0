import Verif.Model.OperatorBatched
import Verif.Proofs.Operator

/-! # Batched operators -/

namespace Verif.Proofs
open Verif Verif.Spec Verif.Model

/-! ## the layout -/

/-- where slot `b` starts -/
def offset (l : List (List PauliOp)) (b : Nat) : Nat := ((l.map List.length).take b).sum

/-- the object holds the lists of terms `l` -/
structure Slots (o : OpB) (l : List (List PauliOp)) : Prop where
  row : o.rowPtr = rowPtrOf (l.map List.length)
  ops : o.ops = l.flatten

theorem slots_ofLists (l : List (List PauliOp)) : Slots (OpB.ofLists l) l := ⟨rfl, rfl⟩

theorem Slots.eq {o : OpB} {l : List (List PauliOp)} (h : Slots o l) : o = OpB.ofLists l := by
  obtain ⟨r, p⟩ := o
  obtain ⟨h1, h2⟩ := h
  simp only at h1 h2
  subst h1; subst h2; rfl

theorem length_rowPtrOf (s : List Nat) : (rowPtrOf s).length = s.length + 1 := by simp [rowPtrOf]

theorem scanl_get (s : List Nat) (a b : Nat) (h : b ≤ s.length) :
    (s.scanl (· + ·) a)[b]? = some (a + (s.take b).sum) := by
  induction s generalizing a b with
  | nil =>
    obtain rfl : b = 0 := by simpa using h
    simp
  | cons x s ih =>
    cases b with
    | zero => simp
    | succ b =>
      rw [List.scanl_cons, List.getElem?_cons_succ, ih (a + x) b (by simpa using h), List.take_succ_cons,
        List.sum_cons, Nat.add_assoc]

theorem rowPtrOf_get {s : List Nat} {b : Nat} (h : b < (rowPtrOf s).length) : (rowPtrOf s)[b] = (s.take b).sum := by
  have h2 := scanl_get s 0 b (by rw [length_rowPtrOf] at h; omega)
  rw [Nat.zero_add] at h2
  exact Option.some.inj ((List.getElem?_eq_getElem h).symm.trans h2)

theorem rowPtrOf_last (s : List Nat) : (rowPtrOf s).getLast? = some s.sum := by
  have h2 := scanl_get s 0 s.length (le_refl _)
  rw [List.take_length, Nat.zero_add] at h2
  rw [List.getLast?_eq_getElem?, length_rowPtrOf]
  exact h2

theorem offset_zero (l : List (List PauliOp)) : offset l 0 = 0 := by simp [offset]

theorem offset_cons (x : List PauliOp) (l : List (List PauliOp)) (b : Nat) :
    offset (x :: l) (b + 1) = x.length + offset l b := by simp [offset]

theorem offset_succ {l : List (List PauliOp)} {b : Nat} (h : b < l.length) : offset l (b + 1) = offset l b + l[b].length := by
  unfold offset
  rw [List.take_succ_eq_append_getElem (by simpa using h)]
  simp

theorem flat_get {l : List (List PauliOp)} {b i : Nat} (hb : b < l.length) (hi : i < l[b].length) :
    l.flatten[offset l b + i]? = some l[b][i] := by
  induction l generalizing b with
  | nil => simp at hb
  | cons x l ih =>
    cases b with
    | zero =>
      have hi' : i < x.length := hi
      rw [offset_zero, Nat.zero_add, List.flatten_cons, List.getElem?_append_left hi', List.getElem?_eq_getElem hi']
      rfl
    | succ b =>
      rw [offset_cons, List.flatten_cons, List.getElem?_append_right (by omega),
        show x.length + offset l b + i - x.length = offset l b + i from by omega]
      have hb' : b < l.length := by simpa using hb
      exact ih hb' hi

theorem flat_lt {l : List (List PauliOp)} {b i : Nat} (hb : b < l.length) (hi : i < l[b].length) :
    offset l b + i < l.flatten.length := (List.getElem?_eq_some_iff.1 (flat_get hb hi)).1

theorem flat_dec {l : List (List PauliOp)} {k : Nat} (h : k < l.flatten.length) :
    ∃ (b i : Nat) (hb : b < l.length) (_ : i < l[b].length), k = offset l b + i := by
  induction l generalizing k with
  | nil => simp at h
  | cons x l ih =>
    rw [List.flatten_cons, List.length_append] at h
    by_cases hk : k < x.length
    · exact ⟨0, k, by simp, hk, by rw [offset_zero, Nat.zero_add]⟩
    · obtain ⟨b, i, hb, hi, e⟩ := ih (k := k - x.length) (by omega)
      exact ⟨b + 1, i, by simpa using hb, hi, by rw [offset_cons]; omega⟩

theorem offset_mono {l : List (List PauliOp)} {b b' : Nat} (h : b ≤ b') (hb : b' ≤ l.length) : offset l b ≤ offset l b' := by
  induction b' with
  | zero => obtain rfl : b = 0 := by omega
            exact le_refl _
  | succ b' ih =>
    rcases Nat.lt_or_ge b' b with h1 | h1
    · obtain rfl : b = b' + 1 := by omega
      exact le_refl _
    · have := ih h1 (by omega)
      rw [offset_succ (show b' < l.length by omega)]
      omega

theorem offset_inj {l : List (List PauliOp)} {b b' i i' : Nat} (hb : b < l.length) (hb' : b' < l.length)
    (hi : i < l[b].length) (hi' : i' < l[b'].length) (h : offset l b + i = offset l b' + i') : b = b' ∧ i = i' := by
  rcases Nat.lt_trichotomy b b' with hlt | rfl | hlt
  · have h1 := offset_mono (l := l) (show b + 1 ≤ b' from hlt) (by omega)
    rw [offset_succ hb] at h1
    omega
  · omega
  · have h1 := offset_mono (l := l) (show b' + 1 ≤ b from hlt) (by omega)
    rw [offset_succ hb'] at h1
    omega

theorem length_flatten (l : List (List PauliOp)) : l.flatten.length = (l.map List.length).sum := by simp

section
variable {o t : OpB} {l lt : List (List PauliOp)}

theorem Slots.rowLength (h : Slots o l) : o.rowPtr.length = l.length + 1 := by
  rw [h.row, length_rowPtrOf, List.length_map]

theorem Slots.size (h : Slots o l) : o.batchSize = l.length := by
  unfold OpB.batchSize; rw [h.rowLength]; rfl

theorem Slots.first (h : Slots o l) (b : Fin o.batchSize) : o.first b = offset l b.val := by
  obtain rfl := h.eq
  unfold OpB.first
  exact rowPtrOf_get _

theorem Slots.bound (h : Slots o l) (b : Fin o.batchSize) : b.val < l.length := lt_of_lt_of_eq b.isLt h.size

theorem Slots.last (h : Slots o l) (b : Fin o.batchSize) :
    o.last b = offset l b.val + (l[b.val]'(h.bound b)).length := by
  rw [← offset_succ]
  obtain rfl := h.eq
  unfold OpB.last
  exact rowPtrOf_get _

theorem Slots.len (h : Slots o l) (b : Fin o.batchSize) :
    o.last b - o.first b = (l[b.val]'(h.bound b)).length := by
  rw [h.last, h.first]; omega

theorem Slots.subview (h : Slots o l) (b : Fin o.batchSize) :
    subview o.ops (o.first b) (o.last b) = .ok (l[b.val]'(h.bound b)) := by
  have hb : b.val < l.length := h.bound b
  unfold Model.subview
  have hle : offset l b.val + l[b.val].length ≤ l.flatten.length := by
    rw [← offset_succ hb]
    have := offset_mono (l := l) (show b.val + 1 ≤ l.length from hb) (le_refl _)
    refine le_trans this ?_
    unfold offset
    rw [List.take_of_length_le (by simp), ← length_flatten]
  rw [if_pos]
  · congr 1
    rw [h.len, h.first, h.ops]
    apply List.ext_getElem?
    intro i
    by_cases hi : i < l[b.val].length
    · rw [List.getElem?_take_of_lt hi, List.getElem?_drop, flat_get hb hi, List.getElem?_eq_getElem hi]
    · rw [List.getElem?_eq_none (by simp; omega), List.getElem?_eq_none (by omega)]
  · rw [h.last, h.first, h.ops]
    exact ⟨by omega, hle⟩

theorem ofLists_ext {a b : OpB} (h1 : a.rowPtr = b.rowPtr) (h2 : a.ops = b.ops) : a = b := by
  cases a; cases b; simp_all

end

/-! ## filling an array -/

theorem cells_ok {l : List PauliOp} {i : Nat} (h : i < l.length) : cells l i = l[i] := by unfold cells; rw [dif_pos h]

theorem cells_out {l : List PauliOp} {i : Nat} (h : ¬ i < l.length) : cells l i = ⟨0, 0, 0⟩ := by unfold cells; rw [dif_neg h]

/-- the arrays that are only read -/
def ReadOnly (na nb : Nat) (p : Nat × Nat) : Prop := (p.1 = 0 ∧ p.2 < na) ∨ (p.1 = 1 ∧ p.2 < nb)

theorem fills_of {ι : Type} [DecidableEq ι] [Finite ι] {pool : Pool ι (Nat × Nat) PauliOp} {a b r : List PauliOp}
    (dst : ι → Nat) (hinj : ∀ w w', dst w = dst w' → w = w') (hlt : ∀ w, dst w < r.length)
    (hcover : ∀ k, k < r.length → ∃ w, dst w = k)
    (hwithin : ∀ w, (pool w).Within2 (· = (2, dst w)) (ReadOnly a.length b.length))
    (hexec : ∀ w junk, (pool w).exec (mem3 a b junk) (2, dst w) = cells r (dst w)) :
    Fills pool a b r := by
  intro junk hj
  refine runs_of_shared _ pool _ _ (fun w p => p = (2, dst w)) (ReadOnly a.length b.length) ?_ ?_ ?_ ?_ hwithin ?_ ?_
  · rintro i j p h1 h2
    rw [h1] at h2
    exact hinj i j (congrArg Prod.snd h2)
  · rintro i p rfl h
    rcases h with ⟨h, -⟩ | ⟨h, -⟩ <;> cases h
  · rintro i p rfl
    exact Or.inr (Or.inr ⟨rfl, hlt i⟩)
  · rintro p (h | h)
    · exact Or.inl h
    · exact Or.inr (Or.inl h)
  · rintro i p rfl
    rw [hexec]; rfl
  · rintro ⟨k, i⟩ hp
    unfold mem3
    dsimp only
    by_cases h0 : k = 0
    · rw [if_pos h0, if_pos h0]
    by_cases h1 : k = 1
    · rw [if_neg h0, if_neg h0, if_pos h1, if_pos h1]
    by_cases h2 : k = 2
    · rw [if_neg h0, if_neg h0, if_neg h1, if_neg h1, if_pos h2, if_pos h2]
      subst h2
      have hi : ¬ i < r.length := by
        intro hi
        obtain ⟨w, hw⟩ := hcover i hi
        exact hp w (by rw [hw])
      rw [cells_out hi, cells_out (by rw [hj]; exact hi)]
    · rw [if_neg h0, if_neg h0, if_neg h1, if_neg h1, if_neg h2, if_neg h2]

theorem fills_unique {ι : Type} [DecidableEq ι] {pool : Pool ι (Nat × Nat) PauliOp} {a b r r' : List PauliOp}
    (h : Fills pool a b r) (h' : Fills pool a b r') (hl : r.length = r'.length) : r = r' := by
  have h1 := h r rfl
  have h2 := h' r hl
  rw [← hl] at h2
  have e := h1.unique h2
  apply List.ext_getElem hl
  intro i hi hi'
  have := congrFun e (2, i)
  simp only [mem3] at this
  norm_num at this
  rwa [cells_ok hi, cells_ok hi'] at this

theorem fills_slots {ι : Type} [DecidableEq ι] [Finite ι] {pool : Pool ι (Nat × Nat) PauliOp} {a b : List PauliOp}
    {lr : List (List PauliOp)} (slot pos : ι → Nat) (hslot : ∀ w, slot w < lr.length)
    (hpos : ∀ w, pos w < (lr[slot w]'(hslot w)).length)
    (hinj : ∀ w w', slot w = slot w' → pos w = pos w' → w = w')
    (hcover : ∀ b i, ∀ hb : b < lr.length, i < lr[b].length → ∃ w, slot w = b ∧ pos w = i)
    (hwithin : ∀ w, (pool w).Within2 (· = (2, offset lr (slot w) + pos w)) (ReadOnly a.length b.length))
    (hexec : ∀ w junk, (lr[slot w]'(hslot w))[pos w]? = some ((pool w).exec (mem3 a b junk) (2, offset lr (slot w) + pos w))) :
    Fills pool a b lr.flatten := by
  refine fills_of (fun w => offset lr (slot w) + pos w) ?_ ?_ ?_ hwithin ?_
  · intro w w' e
    obtain ⟨e1, e2⟩ := offset_inj (hslot w) (hslot w') (hpos w) (hpos w') e
    exact hinj w w' e1 e2
  · intro w; exact flat_lt (hslot w) (hpos w)
  · intro k hk
    obtain ⟨b, i, hb, hi, e⟩ := flat_dec hk
    obtain ⟨w, h1, h2⟩ := hcover b i hb hi
    exact ⟨w, by rw [h1, h2, e]⟩
  · intro w junk
    rw [cells_ok (flat_lt (hslot w) (hpos w))]
    apply Option.some.inj
    rw [← hexec, ← List.getElem?_eq_getElem, flat_get (hslot w) (hpos w), List.getElem?_eq_getElem]

theorem mem3_zero {a b r : List PauliOp} {l : List (List PauliOp)} (h : a = l.flatten) {s i : Nat} (hs : s < l.length)
    (hi : i < l[s].length) : mem3 a b r (0, offset l s + i) = l[s][i] := by
  subst h
  simp only [mem3, if_true]
  rw [cells_ok (flat_lt hs hi)]
  exact (List.getElem?_eq_some_iff.1 (flat_get hs hi)).2

theorem mem3_one {a b r : List PauliOp} {l : List (List PauliOp)} (h : b = l.flatten) {s i : Nat} (hs : s < l.length)
    (hi : i < l[s].length) : mem3 a b r (1, offset l s + i) = l[s][i] := by
  subst h
  simp only [mem3, if_true]
  rw [if_neg (by norm_num), cells_ok (flat_lt hs hi)]
  exact (List.getElem?_eq_some_iff.1 (flat_get hs hi)).2

section
variable {o t : OpB} {l lt : List (List PauliOp)}

theorem Slots.addr (h : Slots o l) (b : Fin o.batchSize) {i : Nat} (hi : i < (l[b.val]'(h.bound b)).length) :
    o.first b + i < o.ops.length := by
  rw [h.first, h.ops]; exact flat_lt (h.bound b) hi

theorem Slots.load0 (h : Slots o l) (b : Fin o.batchSize) {i : Nat} (hi : i < (l[b.val]'(h.bound b)).length)
    (x r : List PauliOp) : mem3 o.ops x r (0, o.first b + i) = (l[b.val]'(h.bound b))[i] := by
  rw [h.first]; exact mem3_zero h.ops (h.bound b) hi

theorem Slots.load1 (h : Slots o l) (b : Fin o.batchSize) {i : Nat} (hi : i < (l[b.val]'(h.bound b)).length)
    (x r : List PauliOp) : mem3 x o.ops r (1, o.first b + i) = (l[b.val]'(h.bound b))[i] := by
  rw [h.first]; exact mem3_one h.ops (h.bound b) hi

/-! ## sum -/

theorem getElem_zipWith' {α β γ : Type} (f : α → β → γ) (a : List α) (b : List β) {i : Nat} (h : i < (List.zipWith f a b).length)
    (ha : i < a.length) (hb : i < b.length) : (List.zipWith f a b)[i] = f a[i] b[i] := by
  rw [List.getElem_zipWith]

theorem sizes_add (ho : Slots o l) (ht : Slots t lt) (h : o.rowPtr.length = t.rowPtr.length) (hlen : l.length = lt.length) :
    o.addSizes t h = (List.zipWith (· ++ ·) l lt).map List.length := by
  unfold OpB.addSizes
  apply List.ext_getElem
  · simp [ho.size, hlen]
  · intro i h1 h2
    rw [List.getElem_ofFn, List.getElem_map, List.getElem_zipWith, List.length_append, ho.len, ht.len]
    rfl

theorem sizes_mul (ho : Slots o l) (ht : Slots t lt) (h : o.rowPtr.length = t.rowPtr.length) (hlen : l.length = lt.length) :
    o.mulSizes t h = (List.zipWith (fun a b => a.flatMap fun p => b.map fun q => p.mul q) l lt).map List.length := by
  unfold OpB.mulSizes
  apply List.ext_getElem
  · simp [ho.size, hlen]
  · intro i h1 h2
    rw [List.getElem_ofFn, List.getElem_map, List.getElem_zipWith, ho.len, ht.len, List.length_flatMap]
    simp only [List.length_map, List.map_const', List.sum_replicate, smul_eq_mul]
    rfl

theorem batchCheck_ok (ho : Slots o l) (ht : Slots t lt) : o.binaryCheck t = .ok () ↔ l.length = lt.length := by
  unfold OpB.binaryCheck
  rw [ho.rowLength, ht.rowLength]
  by_cases h : l.length = lt.length
  · simp [h]
  · rw [if_pos (by omega)]; simp [h]

theorem adds_spec (ho : Slots o l) (ht : Slots t lt) (r : OpB) :
    o.Adds t r ↔ l.length = lt.length ∧ r = OpB.ofLists (List.zipWith (· ++ ·) l lt) := by
  by_cases hlen : l.length = lt.length
  swap
  · constructor
    · rintro ⟨h, -⟩; exact ⟨(batchCheck_ok ho ht).1 h, absurd ((batchCheck_ok ho ht).1 h) hlen⟩
    · rintro ⟨h, -⟩; exact absurd h hlen
  have h : o.rowPtr.length = t.rowPtr.length := by rw [ho.rowLength, ht.rowLength, hlen]
  have hpos : 0 < o.rowPtr.length := by rw [ho.rowLength]; omega
  set lr := List.zipWith (· ++ ·) l lt with hlr
  have hlrlen : lr.length = l.length := by rw [hlr]; simp [hlen]
  have hsz := sizes_add ho ht h hlen
  have hrow : ∀ (b : Nat) (hb : b < (rowPtrOf (o.addSizes t h)).length), (rowPtrOf (o.addSizes t h))[b] = offset lr b := by
    intro b hb
    rw [rowPtrOf_get, hsz]; rfl
  have hget : ∀ (b : Nat) (hb : b < lr.length) , lr[b] = l[b]'(by omega) ++ lt[b]'(by omega) := by
    intro b hb; simp [hlr]
  have hlt : ∀ (b : Fin o.batchSize), b.val < lr.length := fun b => by have := ho.bound b; omega
  have fill : Fills (o.addPool t h (rowPtrOf (o.addSizes t h)) (o.length_addRow t h hpos)) o.ops t.ops lr.flatten := by
    refine fills_slots (fun w => w.1.val) (fun w => match w.2 with
      | .inl i => i.val
      | .inr i => (o.last w.1 - o.first w.1) + i.val) (fun w => hlt w.1) ?_ ?_ ?_ ?_ ?_
    · rintro ⟨b, i | i⟩ <;> dsimp only <;> rw [hget _ (hlt b), List.length_append]
      · have := lt_of_lt_of_eq i.isLt (ho.len _)
        omega
      · have := lt_of_lt_of_eq i.isLt (ht.len _)
        change i.val < (lt[b.val]'(by have := hlt b; omega)).length at this
        rw [ho.len b]
        omega
    · rintro ⟨b, i⟩ ⟨b', i'⟩ e1 e2
      obtain rfl := Fin.ext e1
      rcases i with i | i <;> rcases i' with i' | i' <;> dsimp only at e2
      · obtain rfl := Fin.ext e2; rfl
      · have := i.isLt; omega
      · have := i'.isLt; omega
      · obtain rfl := Fin.ext (show i.val = i'.val by omega); rfl
    · intro b i hb hi
      have hb' : b < o.batchSize := by rw [ho.size]; omega
      rw [hget _ hb, List.length_append] at hi
      by_cases hc : i < l[b].length
      · exact ⟨⟨⟨b, hb'⟩, .inl ⟨i, by rw [ho.len]; exact hc⟩⟩, rfl, rfl⟩
      · refine ⟨⟨⟨b, hb'⟩, .inr ⟨i - l[b].length, by rw [ht.len]; show _ < lt[b].length; omega⟩⟩, rfl, ?_⟩
        dsimp only
        rw [ho.len]; dsimp only; omega
    · rintro ⟨b, ⟨i, hi⟩ | ⟨i, hi⟩⟩
      · refine ⟨Or.inr (Or.inl ⟨rfl, ?_⟩), fun v => ⟨?_, trivial⟩⟩
        · exact ho.addr b (lt_of_lt_of_eq hi (ho.len _))
        · dsimp only; rw [hrow]
      · refine ⟨Or.inr (Or.inr ⟨rfl, ?_⟩), fun v => ⟨?_, trivial⟩⟩
        · exact ht.addr _ (lt_of_lt_of_eq hi (ht.len _))
        · dsimp only; rw [hrow, Nat.add_assoc]
    · rintro ⟨b, ⟨i, hi⟩ | ⟨i, hi⟩⟩ junk
      · have hi' := lt_of_lt_of_eq hi (ho.len _)
        unfold OpB.addPool
        simp only [Prog.bind_load, Prog.store_def, Prog.exec]
        rw [hrow, Function.update_self, ho.load0 b hi']
        rw [hget _ (hlt b), List.getElem?_append_left hi', List.getElem?_eq_getElem hi']
      · have hi' := lt_of_lt_of_eq hi (ht.len _)
        unfold OpB.addPool
        simp only [Prog.bind_load, Prog.store_def, Prog.exec]
        rw [hrow, Nat.add_assoc, Function.update_self, ht.load1 _ hi']
        rw [hget _ (hlt b), ho.len, List.getElem?_append_right (by omega), Nat.add_sub_cancel_left]
        exact List.getElem?_eq_getElem hi'
  constructor
  · rintro ⟨-, h', hpos', h1, h2, h3⟩
    refine ⟨hlen, ofLists_ext ?_ ?_⟩
    · rw [h1, hsz]; rfl
    · refine fills_unique h3 fill ?_
      rw [h1, rowPtrOf_last, hsz] at h2
      rw [Option.some.inj h2]; exact (length_flatten lr).symm
  · rintro ⟨-, rfl⟩
    refine ⟨(batchCheck_ok ho ht).2 hlen, h, hpos, ?_, ?_, fill⟩
    · rw [hsz]; rfl
    · show some lr.flatten.length = (rowPtrOf (lr.map List.length)).getLast?
      rw [rowPtrOf_last, length_flatten]

/-! ## product -/

/-- the products of two lists of terms, as `Operator::operator*` lists them -/
noncomputable def products (a b : List PauliOp) : List PauliOp := a.flatMap fun p => b.map fun q => p.mul q

theorem length_products (a b : List PauliOp) : (products a b).length = a.length * b.length := by
  simp [products, List.length_flatMap]

theorem products_get {a b : List PauliOp} {i : Nat} (hi : i < (products a b).length) (h1 : i / b.length < a.length)
    (h2 : i % b.length < b.length) : (products a b)[i] = (a[i / b.length]).mul (b[i % b.length]) := by
  induction a generalizing i with
  | nil => simp at h1
  | cons x a ih =>
    have hb : 0 < b.length := by omega
    have e : products (x :: a) b = b.map (fun q => x.mul q) ++ products a b := by simp [products]
    simp only [e]
    by_cases hc : i < b.length
    · rw [List.getElem_append_left (by simpa using hc), List.getElem_map]
      simp only [Nat.div_eq_of_lt hc, Nat.mod_eq_of_lt hc, List.getElem_cons_zero]
    · obtain ⟨j, rfl⟩ : ∃ j, i = j + b.length := ⟨i - b.length, by omega⟩
      rw [List.getElem_append_right (by simp)]
      simp only [List.length_map, Nat.add_sub_cancel, Nat.add_mod_right, Nat.add_div_right _ hb, List.getElem_cons_succ]
      rw [Nat.add_div_right _ hb] at h1
      apply ih

theorem muls_spec (ho : Slots o l) (ht : Slots t lt) (r : OpB) :
    o.Muls t r ↔ l.length = lt.length ∧ r = OpB.ofLists (List.zipWith products l lt) := by
  by_cases hlen : l.length = lt.length
  swap
  · constructor
    · rintro ⟨h, -⟩; exact ⟨(batchCheck_ok ho ht).1 h, absurd ((batchCheck_ok ho ht).1 h) hlen⟩
    · rintro ⟨h, -⟩; exact absurd h hlen
  have h : o.rowPtr.length = t.rowPtr.length := by rw [ho.rowLength, ht.rowLength, hlen]
  have hpos : 0 < o.rowPtr.length := by rw [ho.rowLength]; omega
  set lr := List.zipWith products l lt with hlr
  have hlrlen : lr.length = l.length := by rw [hlr]; simp [hlen]
  have hsz : o.mulSizes t h = lr.map List.length := sizes_mul ho ht h hlen
  have hrow : ∀ (b : Nat) (hb : b < (rowPtrOf (o.mulSizes t h)).length), (rowPtrOf (o.mulSizes t h))[b] = offset lr b := by
    intro b hb
    rw [rowPtrOf_get, hsz]; rfl
  have hget : ∀ (b : Nat) (hb : b < lr.length) , lr[b] = products (l[b]'(by omega)) (lt[b]'(by omega)) := by
    intro b hb; simp [hlr]
  have hlt : ∀ (b : Fin o.batchSize), b.val < lr.length := fun b => by have := ho.bound b; omega
  have hdiv : ∀ (b : Fin o.batchSize) (i : Nat), i < (o.last b - o.first b) * (t.last (OpB.slotIn h b) - t.first (OpB.slotIn h b)) →
      i / (t.last (OpB.slotIn h b) - t.first (OpB.slotIn h b)) < (l[b.val]'(ho.bound b)).length ∧
      i % (t.last (OpB.slotIn h b) - t.first (OpB.slotIn h b)) < (lt[(OpB.slotIn h b).val]'(ht.bound (OpB.slotIn h b))).length := by
    intro b i hi
    rw [ho.len, ht.len] at hi
    rw [ht.len]
    have hz : 0 < (lt[(OpB.slotIn h b).val]'(ht.bound (OpB.slotIn h b))).length := by
      rcases Nat.eq_zero_or_pos (lt[(OpB.slotIn h b).val]'(ht.bound (OpB.slotIn h b))).length with hz | hz
      · simp [hz] at hi
      · exact hz
    exact ⟨Nat.div_lt_of_lt_mul (by rw [Nat.mul_comm]; exact hi), Nat.mod_lt _ hz⟩
  have fill : Fills (o.mulPool t h (rowPtrOf (o.mulSizes t h)) (o.length_mulRow t h hpos)) o.ops t.ops lr.flatten := by
    refine fills_slots (fun w => w.1.val) (fun w => w.2.val) (fun w => hlt w.1) ?_ ?_ ?_ ?_ ?_
    · rintro ⟨b, i, hi⟩
      dsimp only
      rw [hget _ (hlt b), length_products]
      rw [ho.len, ht.len] at hi
      exact hi
    · rintro ⟨b, i⟩ ⟨b', i'⟩ e1 e2
      obtain rfl := Fin.ext e1
      obtain rfl := Fin.ext e2; rfl
    · intro b i hb hi
      have hb' : b < o.batchSize := by rw [ho.size]; omega
      rw [hget _ hb, length_products] at hi
      exact ⟨⟨⟨b, hb'⟩, ⟨i, by rw [ho.len, ht.len]; exact hi⟩⟩, rfl, rfl⟩
    · rintro ⟨b, i, hi⟩
      obtain ⟨d1, d2⟩ := hdiv b i hi
      refine ⟨Or.inr (Or.inl ⟨rfl, ?_⟩), fun v => ⟨Or.inr (Or.inr ⟨rfl, ?_⟩), fun v => ⟨?_, trivial⟩⟩⟩
      · exact ho.addr b d1
      · exact ht.addr _ d2
      · dsimp only; rw [hrow]
    · rintro ⟨b, i, hi⟩ junk
      obtain ⟨d1, d2⟩ := hdiv b i hi
      unfold OpB.mulPool
      simp only [Prog.bind_load, Prog.store_def, Prog.exec]
      rw [hrow, Function.update_self, ho.load0 b d1, ht.load1 _ d2]
      rw [hget _ (hlt b)]
      have hi2 : i < (products (l[b.val]'(ho.bound b)) (lt[(OpB.slotIn h b).val]'(ht.bound _))).length := by
        rw [ho.len, ht.len] at hi
        rw [length_products]; exact hi
      refine (List.getElem?_eq_getElem hi2).trans ?_
      rw [products_get hi2]
      congr 1
      congr 1 <;> simp only [ht.len]
      · have := d1; rw [ht.len] at this; exact this
      · have := d2; rw [ht.len] at this; exact this
  constructor
  · rintro ⟨-, h', hpos', h1, h2, h3⟩
    refine ⟨hlen, ofLists_ext ?_ ?_⟩
    · rw [h1, hsz]; rfl
    · refine fills_unique h3 fill ?_
      rw [h1, rowPtrOf_last, hsz] at h2
      rw [Option.some.inj h2]; exact (length_flatten lr).symm
  · rintro ⟨-, rfl⟩
    refine ⟨(batchCheck_ok ho ht).2 hlen, h, hpos, ?_, ?_, fill⟩
    · rw [hsz]; rfl
    · show some lr.flatten.length = (rowPtrOf (lr.map List.length)).getLast?
      rw [rowPtrOf_last, length_flatten]

/-! ## sum with a Pauli operator per slot -/

theorem paulisCheck_ok (ho : Slots o l) (ps : List PauliOp) : o.paulisCheck ps = .ok () ↔ ps.length = l.length + 1 := by
  unfold OpB.paulisCheck
  rw [ho.rowLength]
  by_cases h : ps.length = l.length + 1
  · simp [h]
  · rw [if_pos (by omega)]; simp [h]

theorem addsPaulis_spec (ho : Slots o l) (ps : List PauliOp) (r : OpB) :
    o.AddsPaulis ps r ↔ ps.length = l.length + 1 ∧ r = OpB.ofLists (List.zipWith (fun a p => a ++ [p]) l ps) := by
  by_cases hlen : ps.length = l.length + 1
  swap
  · constructor
    · rintro ⟨h, -⟩; exact ⟨(paulisCheck_ok ho ps).1 h, absurd ((paulisCheck_ok ho ps).1 h) hlen⟩
    · rintro ⟨h, -⟩; exact absurd h hlen
  have hpos : 0 < o.rowPtr.length := by rw [ho.rowLength]; omega
  set lr := List.zipWith (fun a p => a ++ [p]) l ps with hlr
  have hlrlen : lr.length = l.length := by rw [hlr]; simp [hlen]
  have hget : ∀ (b : Nat) (hb : b < lr.length) , lr[b] = l[b]'(by omega) ++ [ps[b]'(by omega)] := by
    intro b hb; simp [hlr]
  have hsz : o.addPauliSizes = lr.map List.length := by
    unfold OpB.addPauliSizes
    apply List.ext_getElem
    · simp [ho.size, hlrlen]
    · intro i h1 h2
      rw [List.getElem_ofFn, List.getElem_map, hget, List.length_append, ho.len]
      rfl
  have hrow : ∀ (b : Nat) (hb : b < (rowPtrOf o.addPauliSizes).length), (rowPtrOf o.addPauliSizes)[b] = offset lr b := by
    intro b hb
    rw [rowPtrOf_get, hsz]; rfl
  have hlt : ∀ (b : Fin o.batchSize), b.val < lr.length := fun b => by have := ho.bound b; omega
  have fill : Fills (o.addPauliPool (rowPtrOf o.addPauliSizes) (o.length_addPauliRow hpos)) o.ops ps lr.flatten := by
    refine fills_slots (fun w => w.1.val) (fun w => w.2.val) (fun w => hlt w.1) ?_ ?_ ?_ ?_ ?_
    · rintro ⟨b, i, hi⟩
      dsimp only
      rw [hget _ (hlt b), List.length_append]
      rw [ho.len] at hi
      exact hi
    · rintro ⟨b, i⟩ ⟨b', i'⟩ e1 e2
      obtain rfl := Fin.ext e1
      obtain rfl := Fin.ext e2; rfl
    · intro b i hb hi
      have hb' : b < o.batchSize := by rw [ho.size]; omega
      rw [hget _ hb, List.length_append] at hi
      exact ⟨⟨⟨b, hb'⟩, ⟨i, by rw [ho.len]; exact hi⟩⟩, rfl, rfl⟩
    · rintro ⟨b, i, hi⟩
      unfold OpB.addPauliPool
      dsimp only
      by_cases hc : i < o.last b - o.first b
      · rw [if_pos hc]
        refine ⟨Or.inr (Or.inl ⟨rfl, ?_⟩), fun v => ⟨?_, trivial⟩⟩
        · exact ho.addr b (lt_of_lt_of_eq hc (ho.len _))
        · dsimp only; rw [hrow]
      · rw [if_neg hc]
        refine ⟨Or.inr (Or.inr ⟨rfl, ?_⟩), fun v => ⟨?_, trivial⟩⟩
        · have := ho.bound b; dsimp only; omega
        · dsimp only; rw [hrow]
    · rintro ⟨b, i, hi⟩ junk
      unfold OpB.addPauliPool
      dsimp only
      by_cases hc : i < o.last b - o.first b
      · have hi' := lt_of_lt_of_eq hc (ho.len _)
        rw [if_pos hc]
        simp only [Prog.bind_load, Prog.store_def, Prog.exec]
        rw [hrow, Function.update_self, ho.load0 b hi']
        rw [hget _ (hlt b), List.getElem?_append_left hi', List.getElem?_eq_getElem hi']
      · rw [if_neg hc]
        simp only [Prog.bind_load, Prog.store_def, Prog.exec]
        have hb := ho.bound b
        rw [hrow, Function.update_self]
        have e : mem3 o.ops ps junk (1, b.val) = ps[b.val]'(by omega) := by
          simp only [mem3, if_true]
          rw [if_neg (by norm_num), cells_ok (by omega)]
        rw [e]
        rw [ho.len] at hc hi
        rw [hget _ (hlt b), List.getElem?_append_right (by omega), show i - (l[b.val]'hb).length = 0 by omega]
        rfl
  constructor
  · rintro ⟨-, hpos', h1, h2, h3⟩
    refine ⟨hlen, ofLists_ext ?_ ?_⟩
    · rw [h1, hsz]; rfl
    · refine fills_unique h3 fill ?_
      rw [h1, rowPtrOf_last, hsz] at h2
      rw [Option.some.inj h2]; exact (length_flatten lr).symm
  · rintro ⟨-, rfl⟩
    refine ⟨(paulisCheck_ok ho ps).2 hlen, hpos, ?_, ?_, fill⟩
    · rw [hsz]; rfl
    · show some lr.flatten.length = (rowPtrOf (lr.map List.length)).getLast?
      rw [rowPtrOf_last, length_flatten]

end

end Verif.Proofs
