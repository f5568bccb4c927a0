import Verif.Model.Space
import Verif.Proofs.CircuitInverse

/-! # Execution spaces: helper lemmas -/

namespace Verif.Proofs
open Verif Verif.Spec Verif.Model

/-- every matrix gate among the leaves was built for `s` -/
def UHome (s : Space) (g : SUGate) : Prop := g.gate.hasSpace = true → g.space = s

def GHome (s : Space) : SGate → Prop
  | .det g => UHome s g
  | .prob t => ∀ g ∈ t.gates, UHome s g
  | .meas _ => True

def LHome (s : Space) : SPLeaf → Prop
  | .fixed g => UHome s g
  | .rot _ => True

def PHome (s : Space) : SPGate → Prop
  | .rot _ => True
  | .prob t => ∀ g ∈ t.gates, LHome s g

def IHome (s : Space) : SItem → Prop
  | .inl g => GHome s g
  | .inr (p, _) => PHome s p

theorem foreign_false {s : Space} {g : SUGate} (h : UHome s g) : g.foreign s = false := by
  unfold SUGate.foreign
  cases hs : g.gate.hasSpace with
  | false => rfl
  | true => simp [h hs]

theorem select_map {G H : Type} (φ : G → H) (t : ProbTable G) (r : ℝ) :
    (t.map φ).select r = (t.select r).map φ := by
  unfold ProbTable.select ProbTable.map
  cases h : selectIndex t.cum r with
  | error e => rfl
  | ok i =>
    simp only [ok_bind, List.getElem?_map]
    cases t.gates[i]? <;> rfl

theorem uhome_runs {s : Space} {g : SUGate} (h : UHome s g) {L n : Nat} {c c' : Context} {f : Option Fault} :
    (g.RunsOn s L n c c' f ↔ g.gate.RunsOn L n c c' f) ∧ (g.RunsOnView s L n c c' f ↔ g.gate.RunsOnView L n c c' f) := by
  unfold SUGate.RunsOn SUGate.RunsOnView
  rw [foreign_false h]
  exact ⟨Iff.rfl, Iff.rfl⟩

theorem ghome_runs {s : Space} {g : SGate} (h : GHome s g) {L n : Nat} {rnd : Nat → ℝ} {c c' : Context} {f : Option Fault} :
    (g.RunsOn s L n rnd c c' f ↔ g.plain.RunsOn L n rnd c c' f) ∧
      (g.RunsOnView s L n rnd c c' f ↔ g.plain.RunsOnView L n rnd c c' f) := by
  cases g with
  | det g => exact uhome_runs (g := g) h
  | meas g => exact ⟨Iff.rfl, Iff.rfl⟩
  | prob t =>
    simp only [SGate.RunsOn, SGate.RunsOnView, SGate.plain, Gate.RunsOn, Gate.RunsOnView, select_map]
    cases hs : t.select (rnd c.pos) with
    | error e => exact ⟨Iff.rfl, Iff.rfl⟩
    | ok u => exact uhome_runs (h u (select_mem hs))

theorem slotStep_congr {n b : Nat} {R T : Context → Context → Option Fault → Prop} (h : ∀ c c' f, R c c' f ↔ T c c' f)
    (c c' : BContext) (f : Option Fault) : SlotStep n R b c c' f ↔ SlotStep n T b c c' f := by
  rw [show R = T from funext fun _ => funext fun _ => funext fun _ => propext (h _ _ _)]

theorem seqRun_same {ι C : Type} {S T : ι → C → C → Option Fault → Prop} (h : ∀ i c c' f, S i c c' f ↔ T i c c' f) {is : List ι}
    {c c' : C} {f : Option Fault} : SeqRun S is c c' f ↔ SeqRun T is c c' f := by
  rw [show S = T from funext fun _ => funext fun _ => funext fun _ => funext fun _ => propext (h _ _ _ _)]

theorem ghome_batched {s : Space} {g : SGate} (h : GHome s g) {L B n : Nat} {rnd : Nat → ℝ} {c c' : BContext} {f : Option Fault} :
    g.RunsBatched s L B n rnd c c' f ↔ g.plain.RunsBatched L B n rnd c c' f := by
  cases g with
  | det g =>
    unfold SGate.RunsBatched
    dsimp only
    rw [foreign_false h]
    exact Iff.rfl
  | meas g => exact Iff.rfl
  | prob t => exact seqRun_same fun i => slotStep_congr fun c c' f => (ghome_runs (g := .prob t) h).2

theorem lhome_runs {s : Space} {g : SPLeaf} (h : LHome s g) {L n : Nat} {t : ℝ} {c c' : Context} {f : Option Fault} :
    (g.RunsOn s L n t c c' f ↔ g.plain.RunsOn L n t c c' f) ∧ (g.RunsOnView s L n t c c' f ↔ g.plain.RunsOnView L n t c c' f) := by
  cases g with
  | fixed g => exact uhome_runs (g := g) h
  | rot g => exact ⟨Iff.rfl, Iff.rfl⟩

theorem phome_runs {s : Space} {g : SPGate} (h : PHome s g) {L n : Nat} {rnd : Nat → ℝ} {t : ℝ} {c c' : Context} {f : Option Fault} :
    (g.RunsOn s L n rnd t c c' f ↔ g.plain.RunsOn L n rnd t c c' f) ∧
      (g.RunsOnView s L n rnd t c c' f ↔ g.plain.RunsOnView L n rnd t c c' f) := by
  cases g with
  | rot g => exact ⟨Iff.rfl, Iff.rfl⟩
  | prob tb =>
    simp only [SPGate.RunsOn, SPGate.RunsOnView, SPGate.plain, PGate.RunsOn, PGate.RunsOnView, select_map]
    cases hs : tb.select (rnd c.pos) with
    | error e => exact ⟨Iff.rfl, Iff.rfl⟩
    | ok u => exact lhome_runs (h u (select_mem hs))

theorem phome_batched {s : Space} {g : SPGate} (h : PHome s g) {L B n : Nat} {rnd : Nat → ℝ} {v : List ℝ} {c c' : BContext}
    {f : Option Fault} : g.RunsBatched s L B n rnd v c c' f ↔ g.plain.RunsBatched L B n rnd v c c' f := by
  cases g with
  | rot g => exact Iff.rfl
  | prob t =>
    refine seqRun_same fun i c c' f => ?_
    unfold SPGate.SlotRun PGate.SlotRun
    cases v[i]? with
    | none => exact Iff.rfl
    | some p => exact slotStep_congr (fun c c' f => (phome_runs (g := .prob t) h).2) _ _ _

theorem ihome_runs {s : Space} {g : SItem} (h : IHome s g) {L n : Nat} {rnd : Nat → ℝ} {θ : String → Option ℝ} {c c' : Context × U64}
    {f : Option Fault} : SItem.RunsOn s L n rnd θ g c c' f ↔ Item.RunsOn L n rnd θ (SItem.plain g) c c' f := by
  unfold SItem.RunsOn Item.RunsOn
  by_cases hm : c.2 &&& Item.operandMask (SItem.plain g) ≠ 0
  · rw [if_pos hm, if_pos hm]
  · rw [if_neg hm, if_neg hm]
    rcases g with g | ⟨p, key⟩
    · exact and_congr_left fun _ => (ghome_runs h).1
    · dsimp only [SItem.plain]
      cases θ key with
      | none => exact Iff.rfl
      | some t => exact and_congr_left fun _ => (phome_runs h).1

theorem ihome_batched {s : Space} {g : SItem} (h : IHome s g) {L B n : Nat} {rnd : Nat → ℝ} {θ : String → Option (List ℝ)}
    {c c' : BContext × U64} {f : Option Fault} :
    SItem.RunsBatched s L B n rnd θ g c c' f ↔ Item.RunsBatched L B n rnd θ (SItem.plain g) c c' f := by
  unfold SItem.RunsBatched Item.RunsBatched
  by_cases hm : c.2 &&& Item.operandMask (SItem.plain g) ≠ 0
  · rw [if_pos hm, if_pos hm]
  · rw [if_neg hm, if_neg hm]
    rcases g with g | ⟨p, key⟩
    · exact and_congr_left fun _ => ghome_batched h
    · dsimp only [SItem.plain]
      cases θ key with
      | none => exact Iff.rfl
      | some t => exact and_congr_left fun _ => phome_batched h

theorem ihome_slot {s : Space} {g : SItem} (h : IHome s g) {L n : Nat} {rnd : Nat → ℝ} {θ : String → Option (List ℝ)} {cond : Condition}
    (b : Nat) (c c' : BContext) (f : Option Fault) :
    SItem.CondSlot s L n rnd θ cond g b c c' f ↔ Item.CondSlot L n rnd θ cond (SItem.plain g) b c c' f := by
  unfold SItem.CondSlot Item.CondSlot
  cases c.reg.regs[b]? with
  | none => exact Iff.rfl
  | some r =>
    dsimp only
    cases cond r with
    | error e => exact Iff.rfl
    | ok v =>
      cases v with
      | false => exact Iff.rfl
      | true =>
        rcases g with g | ⟨p, key⟩
        · exact slotStep_congr (fun c c' f => (ghome_runs h).2) _ _ _
        · dsimp only [SItem.plain]
          cases θ key with
          | none => exact Iff.rfl
          | some t =>
            dsimp only
            cases t[b]? with
            | none => exact Iff.rfl
            | some p => exact slotStep_congr (fun c c' f => (phome_runs h).2) _ _ _

theorem step_home {s : Space} {C : SCircuit} {i : Nat} (h : ∀ g, C.gates[i]? = some g → IHome s g) {L n : Nat} {rnd : Nat → ℝ}
    {θ : String → Option ℝ} (c c' : Context × U64) (f : Option Fault) :
    C.StepOn s L n rnd θ i c c' f ↔ C.plain.StepOn L n rnd θ i c c' f := by
  unfold SCircuit.StepOn Circuit.StepOn SCircuit.plain
  dsimp only
  rw [List.getElem?_map]
  cases C.conds[i]? with
  | none => exact Iff.rfl
  | some cond =>
    cases hg : C.gates[i]? with
    | none => exact Iff.rfl
    | some g =>
      dsimp only [Option.map]
      cases evalCond cond c.1.reg with
      | error e => exact Iff.rfl
      | ok v =>
        cases v with
        | false => exact Iff.rfl
        | true => exact ihome_runs (h g hg)

theorem step_home_batched {s : Space} {C : SCircuit} {i : Nat} (h : ∀ g, C.gates[i]? = some g → IHome s g) {L B n : Nat} {rnd : Nat → ℝ}
    {θ : String → Option (List ℝ)} (c c' : BContext × U64) (f : Option Fault) :
    C.StepBatched s L B n rnd θ i c c' f ↔ C.plain.StepBatched L B n rnd θ i c c' f := by
  unfold SCircuit.StepBatched Circuit.StepBatched SCircuit.plain
  dsimp only
  rw [List.getElem?_map]
  cases C.conds[i]? with
  | none => exact Iff.rfl
  | some cond =>
    cases hg : C.gates[i]? with
    | none => cases cond <;> exact Iff.rfl
    | some g =>
      cases cond with
      | none => exact ihome_batched (h g hg)
      | some cond => exact and_congr_left fun _ => seqRun_same (ihome_slot (h g hg))

/-! ## inverse -/

theorem uinverse_hasSpace {g g' : UGate} (h : g.inverse = .ok g') : g'.hasSpace = g.hasSpace := by
  cases g with
  | sparse g => cases h
  | one k o => obtain ⟨x, -, h⟩ := bind_ok h; cases h; rfl
  | perm g => obtain ⟨x, -, h⟩ := bind_ok h; cases h; rfl
  | dense g => obtain ⟨x, -, h⟩ := bind_ok h; cases h; rfl
  | _ => cases h; rfl

theorem mapM_plain {α β : Type} (φ : α → β) {f : α → Res α} {g : β → Res β} (h : ∀ a, g (φ a) = (f a).map φ) (l : List α) :
    (l.map φ).mapM g = (l.mapM f).map (List.map φ) := by
  induction l with
  | nil => rfl
  | cons a l ih =>
    rw [List.map_cons, List.mapM_cons, List.mapM_cons, h, ih]
    cases f a with
    | error e => rfl
    | ok b => cases l.mapM f <;> rfl

theorem mkProbTable_map {G H : Type} (φ : G → H) (dist : List (Option ℝ)) (gs : List G) :
    mkProbTable dist ((gs.map φ).map Component.leaf) = (mkProbTable dist (gs.map Component.leaf)).map (ProbTable.map φ) := by
  have hf : ∀ (ps : List ℝ) (gs : List G), flattenAll ps ((gs.map φ).map Component.leaf) =
      (flattenAll ps (gs.map Component.leaf)).map (List.map fun p => (p.1, φ p.2)) := by
    intro ps
    induction ps with
    | nil => intro gs; rfl
    | cons p ps ih =>
      intro gs
      cases gs with
      | nil => rfl
      | cons g gs =>
        simp only [List.map_cons, flattenAll, flattenGate, ih gs]
        cases flattenAll ps (gs.map Component.leaf) <;> rfl
  unfold mkProbTable
  simp only [List.length_map]
  by_cases h1 : dist.length = 0
  · rw [if_pos h1, if_pos h1]; rfl
  rw [if_neg h1, if_neg h1]
  by_cases h2 : dist.length ≠ gs.length
  · rw [if_pos h2, if_pos h2]; rfl
  rw [if_neg h2, if_neg h2]
  cases checkProbabilities dist with
  | error e => rfl
  | ok ps =>
    simp only [ok_bind]
    rw [hf]
    cases flattenAll ps (gs.map Component.leaf) with
    | error e => rfl
    | ok flat =>
      have hm : (flat.map fun p => (p.1, φ p.2)).map (·.1) = flat.map (·.1) := by simp
      have hm2 : (flat.map fun p => (p.1, φ p.2)).map (·.2) = (flat.map (·.2)).map φ := by simp
      simp only [Except.map, ok_bind, hm, hm2]
      cases ((flat.map (·.1)).scanl (· + ·) 0).getLast? with
      | none => rfl
      | some last =>
        dsimp only
        by_cases h3 : |last - 1| > 1 / 10 ^ 6
        · rw [if_pos h3, if_pos h3]
        · rw [if_neg h3, if_neg h3]; rfl

theorem uplain_inverse (g : SUGate) : g.gate.inverse = (g.inverse).map SUGate.gate := by
  unfold SUGate.inverse
  cases g.gate.inverse <;> rfl

theorem gplain_inverse (g : SGate) : g.plain.inverse = (g.inverse).map SGate.plain := by
  cases g with
  | meas g => rfl
  | det g =>
    show (do let g' ← g.gate.inverse; pure (Gate.det g')) = _
    rw [uplain_inverse]
    unfold SGate.inverse
    dsimp only
    cases g.inverse <;> rfl
  | prob t =>
    show (do
      let t' ← ProbTable.inverse (t.map SUGate.gate)
      pure (Gate.prob t')) = _
    unfold ProbTable.inverse ProbTable.map SGate.inverse
    dsimp only
    rw [mapM_plain SUGate.gate uplain_inverse]
    cases t.gates.mapM SUGate.inverse with
    | error e => rfl
    | ok gs =>
      simp only [Except.map, ok_bind]
      rw [mkProbTable_map]
      cases mkProbTable (t.dist.map some) (gs.map Component.leaf) <;> rfl

theorem lplain_inverse (g : SPLeaf) : g.plain.inverse = (g.inverse).map SPLeaf.plain := by
  cases g with
  | rot r => rfl
  | fixed g =>
    show (do let g' ← g.gate.inverse; pure (PLeaf.fixed g')) = _
    rw [uplain_inverse]
    unfold SPLeaf.inverse
    dsimp only
    cases g.inverse <;> rfl

theorem pplain_inverse (g : SPGate) : g.plain.inverse = (g.inverse).map SPGate.plain := by
  cases g with
  | rot r => rfl
  | prob t =>
    unfold SPGate.plain PGate.inverse ProbTable.map SPGate.inverse
    dsimp only
    rw [mapM_plain SPLeaf.plain lplain_inverse]
    cases t.gates.mapM SPLeaf.inverse with
    | error e => rfl
    | ok gs =>
      simp only [Except.map, ok_bind]
      rw [mkProbTable_map]
      cases mkProbTable (t.dist.map some) (gs.map Component.leaf) <;> rfl

theorem iplain_inverse (g : SItem) : Item.inverse (SItem.plain g) = (SItem.inverse g).map SItem.plain := by
  rcases g with g | ⟨p, key⟩
  · show (do let g' ← g.plain.inverse; pure (Sum.inl g' : Item)) = _
    rw [gplain_inverse]
    unfold SItem.inverse
    dsimp only
    cases g.inverse <;> rfl
  · show (do let g' ← p.plain.inverse; pure (Sum.inr (g', key) : Item)) = _
    rw [pplain_inverse]
    unfold SItem.inverse
    dsimp only
    cases p.inverse <;> rfl

theorem cplain_inverse (C : SCircuit) : C.plain.inverse = (C.inverse).map SCircuit.plain := by
  have key : ∀ (l : List Nat) (D : SCircuit), l.foldlM C.plain.inverseStep D.plain = (l.foldlM C.inverseStep D).map SCircuit.plain := by
    intro l
    induction l with
    | nil => intro D; rfl
    | cons i l ih =>
      intro D
      rw [List.foldlM_cons, List.foldlM_cons]
      have hs : C.plain.inverseStep D.plain i = (C.inverseStep D i).map SCircuit.plain := by
        unfold Circuit.inverseStep SCircuit.inverseStep
        show (match (C.gates.map SItem.plain)[(C.gates.map SItem.plain).length - 1 - i]? with
          | none => _
          | some g => _) = _
        rw [List.length_map, List.getElem?_map]
        cases C.gates[C.gates.length - 1 - i]? with
        | none => rfl
        | some g =>
          dsimp only [Option.map]
          rw [iplain_inverse]
          cases SItem.inverse g with
          | error e => rfl
          | ok g' =>
            simp only [Except.map, ok_bind]
            show (match C.conds[sub64 (sub64 C.conds.length 1) i]? with
              | none => _
              | some c => _) = _
            cases C.conds[sub64 (sub64 C.conds.length 1) i]? with
            | none => rfl
            | some c =>
              show Except.ok _ = Except.ok _
              congr 1
              simp [SCircuit.plain]
      rw [hs]
      cases C.inverseStep D i with
      | error e => rfl
      | ok D' => exact ih D'
  have := key (List.range C.gates.length) ⟨[], []⟩
  unfold Circuit.inverse SCircuit.inverse
  rw [show C.plain.gates.length = C.gates.length by simp [SCircuit.plain]]
  exact this

theorem mapM_forall {α : Type} {f : α → Res α} {P : α → Prop} (h : ∀ a b, P a → f a = .ok b → P b) {l l' : List α}
    (hl : ∀ a ∈ l, P a) (hm : l.mapM f = .ok l') : ∀ b ∈ l', P b := by
  induction l generalizing l' with
  | nil => cases hm; intro b hb; cases hb
  | cons a l ih =>
    rw [List.mapM_cons] at hm
    obtain ⟨b, hb, hm⟩ := bind_ok hm
    obtain ⟨bs, hbs, hm⟩ := bind_ok hm
    cases hm
    intro x hx
    rcases List.mem_cons.1 hx with rfl | hx
    · exact h a _ (hl a (by simp)) hb
    · exact ih (fun a ha => hl a (by simp [ha])) hbs x hx

theorem uinverse_home {s : Space} (g g' : SUGate) (h : UHome s g) (hi : g.inverse = .ok g') : UHome s g' := by
  unfold SUGate.inverse at hi
  obtain ⟨u, hu, hi⟩ := bind_ok hi
  cases hi
  intro hs
  exact h (by rw [← uinverse_hasSpace hu]; exact hs)

theorem linverse_home {s : Space} (g g' : SPLeaf) (h : LHome s g) (hi : g.inverse = .ok g') : LHome s g' := by
  cases g with
  | rot r => cases hi; trivial
  | fixed g =>
    unfold SPLeaf.inverse at hi
    obtain ⟨u, hu, hi⟩ := bind_ok hi
    cases hi
    exact uinverse_home g u h hu

theorem iinverse_home {s : Space} (g g' : SItem) (h : IHome s g) (hi : SItem.inverse g = .ok g') : IHome s g' := by
  rcases g with g | ⟨p, key⟩
  · unfold SItem.inverse at hi
    obtain ⟨u, hu, hi⟩ := bind_ok hi
    cases hi
    cases g with
    | meas g => cases hu
    | det g =>
      unfold SGate.inverse at hu
      obtain ⟨x, hx, hu⟩ := bind_ok hu
      cases hu
      exact uinverse_home g x h hx
    | prob t =>
      unfold SGate.inverse at hu
      obtain ⟨gs, hgs, hu⟩ := bind_ok hu
      obtain ⟨t', ht', hu⟩ := bind_ok hu
      cases hu
      intro g hg
      rw [(mkProbTable_leaf ht').2.2] at hg
      exact mapM_forall uinverse_home h hgs g hg
  · unfold SItem.inverse at hi
    obtain ⟨u, hu, hi⟩ := bind_ok hi
    cases hi
    cases p with
    | rot r => cases hu; trivial
    | prob t =>
      unfold SPGate.inverse at hu
      obtain ⟨gs, hgs, hu⟩ := bind_ok hu
      obtain ⟨t', ht', hu⟩ := bind_ok hu
      cases hu
      intro g hg
      rw [(mkProbTable_leaf ht').2.2] at hg
      exact mapM_forall linverse_home h hgs g hg

theorem cinverse_home {s : Space} {C D : SCircuit} (h : ∀ g ∈ C.gates, IHome s g) (hi : C.inverse = .ok D) : ∀ g ∈ D.gates, IHome s g := by
  have key : ∀ (l : List Nat) (E D : SCircuit), (∀ g ∈ E.gates, IHome s g) → l.foldlM C.inverseStep E = .ok D → ∀ g ∈ D.gates, IHome s g := by
    intro l
    induction l with
    | nil => intro E D hE h; cases h; exact hE
    | cons i l ih =>
      intro E D hE hD
      rw [List.foldlM_cons] at hD
      obtain ⟨E', hE', hD⟩ := bind_ok hD
      refine ih E' D ?_ hD
      unfold SCircuit.inverseStep at hE'
      cases hg : C.gates[C.gates.length - 1 - i]? with
      | none => rw [hg] at hE'; cases hE'
      | some g =>
        rw [hg] at hE'
        obtain ⟨g', hg', hE'⟩ := bind_ok hE'
        cases hc : C.conds[sub64 (sub64 C.conds.length 1) i]? with
        | none => rw [hc] at hE'; cases hE'
        | some c =>
          rw [hc] at hE'
          cases hE'
          intro x hx
          rcases List.mem_append.1 hx with hx | hx
          · exact hE x hx
          · rw [List.mem_singleton] at hx
            subst hx
            exact iinverse_home g x (h g (List.mem_of_getElem? hg)) hg'
  exact key _ _ D (fun g hg => by cases hg) hi

end Verif.Proofs

/-! ## updates that finish -/

namespace Verif.Proofs
open Verif Verif.Spec Verif.Model

theorem seqRun_none {ι C : Type} {S T : ι → C → C → Option Fault → Prop} (h : ∀ i c c', S i c c' none → T i c c' none) {is : List ι}
    {c c' : C} (hr : SeqRun S is c c' none) : SeqRun T is c c' none := by
  generalize hf : (none : Option Fault) = f at hr
  induction hr with
  | nil c => exact .nil _
  | cons i is c c1 c2 f h1 _ ih => exact .cons _ _ _ _ _ _ (h _ _ _ h1) (ih hf)
  | stop i is c c1 e h1 => cases hf

theorem ufinish {s : Space} {g : SUGate} {L n : Nat} {c c' : Context} :
    (g.RunsOn s L n c c' none → g.gate.RunsOn L n c c' none) ∧ (g.RunsOnView s L n c c' none → g.gate.RunsOnView L n c c' none) := by
  unfold SUGate.RunsOn SUGate.RunsOnView
  cases g.foreign s with
  | true => exact ⟨fun h => (by cases h.2), fun h => (by cases h.2)⟩
  | false => exact ⟨id, id⟩

theorem gfinish {s : Space} {g : SGate} {L n : Nat} {rnd : Nat → ℝ} {c c' : Context} :
    (g.RunsOn s L n rnd c c' none → g.plain.RunsOn L n rnd c c' none) ∧
      (g.RunsOnView s L n rnd c c' none → g.plain.RunsOnView L n rnd c c' none) := by
  cases g with
  | det g => exact ufinish
  | meas g => exact ⟨id, id⟩
  | prob t =>
    simp only [SGate.RunsOn, SGate.RunsOnView, SGate.plain, Gate.RunsOn, Gate.RunsOnView, select_map]
    cases t.select (rnd c.pos) with
    | error e => exact ⟨id, id⟩
    | ok u => exact ufinish

theorem slotStep_none {n b : Nat} {R T : Context → Context → Option Fault → Prop} (h : ∀ c c', R c c' none → T c c' none)
    {c c' : BContext} (hr : SlotStep n R b c c' none) : SlotStep n T b c c' none := by
  unfold SlotStep at hr ⊢
  cases hreg : c.reg.regs[b]? with
  | none => rw [hreg] at hr; exact hr
  | some r =>
    rw [hreg] at hr
    obtain ⟨d, h1, h2⟩ := hr
    exact ⟨d, h _ _ h1, h2⟩

theorem gfinish_batched {s : Space} {g : SGate} {L B n : Nat} {rnd : Nat → ℝ} {c c' : BContext}
    (h : g.RunsBatched s L B n rnd c c' none) : g.plain.RunsBatched L B n rnd c c' none := by
  cases g with
  | det g =>
    unfold SGate.RunsBatched at h
    dsimp only at h
    cases hf : g.foreign s with
    | true => rw [hf] at h; cases h.2
    | false => rw [hf] at h; exact h
  | meas g => exact h
  | prob t => exact seqRun_none (fun i c c' => slotStep_none fun c c' => (gfinish (g := .prob t)).2) h

theorem pfinish {s : Space} {g : SPGate} {L n : Nat} {rnd : Nat → ℝ} {t : ℝ} {c c' : Context} :
    (g.RunsOn s L n rnd t c c' none → g.plain.RunsOn L n rnd t c c' none) ∧
      (g.RunsOnView s L n rnd t c c' none → g.plain.RunsOnView L n rnd t c c' none) := by
  cases g with
  | rot g => exact ⟨id, id⟩
  | prob tb =>
    simp only [SPGate.RunsOn, SPGate.RunsOnView, SPGate.plain, PGate.RunsOn, PGate.RunsOnView, select_map]
    cases tb.select (rnd c.pos) with
    | error e => exact ⟨id, id⟩
    | ok u =>
      cases u with
      | fixed u => exact ufinish
      | rot r => exact ⟨id, id⟩

theorem pfinish_batched {s : Space} {g : SPGate} {L B n : Nat} {rnd : Nat → ℝ} {v : List ℝ} {c c' : BContext}
    (h : g.RunsBatched s L B n rnd v c c' none) : g.plain.RunsBatched L B n rnd v c c' none := by
  cases g with
  | rot g => exact h
  | prob t =>
    refine seqRun_none (fun i c c' h => ?_) h
    unfold SPGate.SlotRun at h
    unfold PGate.SlotRun
    cases hv : v[i]? with
    | none => rw [hv] at h; exact h
    | some p => rw [hv] at h; exact slotStep_none (fun c c' => (pfinish (g := .prob t)).2) h

theorem ifinish {s : Space} {g : SItem} {L n : Nat} {rnd : Nat → ℝ} {θ : String → Option ℝ} {c c' : Context × U64}
    (h : SItem.RunsOn s L n rnd θ g c c' none) : Item.RunsOn L n rnd θ (SItem.plain g) c c' none := by
  unfold SItem.RunsOn at h
  unfold Item.RunsOn
  by_cases hm : c.2 &&& Item.operandMask (SItem.plain g) ≠ 0
  · rw [if_pos hm] at h ⊢; exact h
  · rw [if_neg hm] at h ⊢
    rcases g with g | ⟨p, key⟩
    · exact ⟨gfinish.1 h.1, h.2⟩
    · dsimp only [SItem.plain] at h ⊢
      cases hk : θ key with
      | none => rw [hk] at h; exact h
      | some t => rw [hk] at h; exact ⟨pfinish.1 h.1, h.2⟩

theorem ifinish_batched {s : Space} {g : SItem} {L B n : Nat} {rnd : Nat → ℝ} {θ : String → Option (List ℝ)} {c c' : BContext × U64}
    (h : SItem.RunsBatched s L B n rnd θ g c c' none) : Item.RunsBatched L B n rnd θ (SItem.plain g) c c' none := by
  unfold SItem.RunsBatched at h
  unfold Item.RunsBatched
  by_cases hm : c.2 &&& Item.operandMask (SItem.plain g) ≠ 0
  · rw [if_pos hm] at h ⊢; exact h
  · rw [if_neg hm] at h ⊢
    rcases g with g | ⟨p, key⟩
    · exact ⟨gfinish_batched h.1, h.2⟩
    · dsimp only [SItem.plain] at h ⊢
      cases hk : θ key with
      | none => rw [hk] at h; exact h
      | some t => rw [hk] at h; exact ⟨pfinish_batched h.1, h.2⟩

theorem slot_finish {s : Space} {g : SItem} {L n : Nat} {rnd : Nat → ℝ} {θ : String → Option (List ℝ)} {cond : Condition}
    (b : Nat) (c c' : BContext) (h : SItem.CondSlot s L n rnd θ cond g b c c' none) :
    Item.CondSlot L n rnd θ cond (SItem.plain g) b c c' none := by
  unfold SItem.CondSlot at h
  unfold Item.CondSlot
  cases hr : c.reg.regs[b]? with
  | none => rw [hr] at h; exact h
  | some r =>
    rw [hr] at h
    dsimp only at h ⊢
    cases hc : cond r with
    | error e => rw [hc] at h; exact h
    | ok v =>
      rw [hc] at h
      cases v with
      | false => exact h
      | true =>
        rcases g with g | ⟨p, key⟩
        · exact slotStep_none (fun c c' => gfinish.2) h
        · dsimp only [SItem.plain] at h ⊢
          cases hk : θ key with
          | none => rw [hk] at h; exact h
          | some t =>
            rw [hk] at h
            dsimp only at h ⊢
            cases ht : t[b]? with
            | none => rw [ht] at h; exact h
            | some p => rw [ht] at h; exact slotStep_none (fun c c' => pfinish.2) h

theorem step_finish {s : Space} {C : SCircuit} {L n : Nat} {rnd : Nat → ℝ} {θ : String → Option ℝ} (i : Nat) (c c' : Context × U64)
    (h : C.StepOn s L n rnd θ i c c' none) : C.plain.StepOn L n rnd θ i c c' none := by
  unfold SCircuit.StepOn at h
  unfold Circuit.StepOn SCircuit.plain
  dsimp only
  rw [List.getElem?_map]
  cases hc : C.conds[i]? with
  | none => rw [hc] at h; exact h
  | some cond =>
    cases hg : C.gates[i]? with
    | none => rw [hc, hg] at h; exact h
    | some g =>
      rw [hc, hg] at h
      dsimp only [Option.map] at h ⊢
      cases he : evalCond cond c.1.reg with
      | error e => rw [he] at h; exact h
      | ok v =>
        rw [he] at h
        cases v with
        | false => exact h
        | true => exact ifinish h

theorem step_finish_batched {s : Space} {C : SCircuit} {L B n : Nat} {rnd : Nat → ℝ} {θ : String → Option (List ℝ)} (i : Nat)
    (c c' : BContext × U64) (h : C.StepBatched s L B n rnd θ i c c' none) : C.plain.StepBatched L B n rnd θ i c c' none := by
  unfold SCircuit.StepBatched at h
  unfold Circuit.StepBatched SCircuit.plain
  dsimp only
  rw [List.getElem?_map]
  cases hc : C.conds[i]? with
  | none => rw [hc] at h; exact h
  | some cond =>
    cases hg : C.gates[i]? with
    | none => rw [hc, hg] at h; cases cond <;> exact h
    | some g =>
      rw [hc, hg] at h
      cases cond with
      | none => exact ifinish_batched h
      | some cond => exact ⟨seqRun_none slot_finish h.1, h.2⟩

/-! ## the first gate of another space -/

theorem seqRun_split {ι C : Type} {S : ι → C → C → Option Fault → Prop} {is js : List ι} {c c2 : C} {f : Option Fault}
    (h : SeqRun S (is ++ js) c c2 f) :
    (∃ e, f = some e ∧ SeqRun S is c c2 (some e)) ∨ ∃ c1, SeqRun S is c c1 none ∧ SeqRun S js c1 c2 f := by
  induction is generalizing c with
  | nil => exact .inr ⟨c, .nil _, h⟩
  | cons i is ih =>
    cases h with
    | cons _ _ _ c1 _ _ h1 h2 =>
      rcases ih h2 with ⟨e, rfl, h3⟩ | ⟨c3, h3, h4⟩
      · exact .inl ⟨e, rfl, .cons _ _ _ _ _ _ h1 h3⟩
      · exact .inr ⟨c3, .cons _ _ _ _ _ _ h1 h3, h4⟩
    | stop _ _ _ _ e h1 => exact .inl ⟨e, rfl, .stop _ _ _ _ _ h1⟩

/-- the first `i` entries -/
def takeCircuit (C : Circuit) (i : Nat) : Circuit := ⟨C.gates.take i, C.conds.take i⟩

theorem take_check {C : Circuit} {n : Nat} {θ : String → Option ℝ} (h : C.check n θ = .ok ()) (i : Nat) :
    (takeCircuit C i).check n θ = .ok () := by
  obtain ⟨_, h1, h2⟩ := bind_ok h
  have hq : C.requiredQubits ≤ n := by
    by_contra hc
    unfold Circuit.checkQubits at h1
    rw [if_pos (by omega)] at h1
    cases h1
  have hq' : (takeCircuit C i).requiredQubits ≤ n := by
    unfold Circuit.requiredQubits at hq ⊢
    rw [bitWidth_le_iff] at hq ⊢
    intro j hj
    refine hq j ?_
    rw [foldl_or_bit] at hj ⊢
    rcases hj with hj | ⟨a, ha, hj⟩
    · exact .inl hj
    · exact .inr ⟨a, List.mem_of_mem_take ha, hj⟩
  unfold Circuit.check
  have : (takeCircuit C i).checkQubits n = .ok () := by
    unfold Circuit.checkQubits
    rw [if_neg (by omega)]
  rw [this, ok_bind]
  exact checkKeys_iff.1.2 fun p k hm => checkKeys_iff.1.1 h2 p k (List.mem_of_mem_take hm)

theorem take_step {C : Circuit} {i j : Nat} (hj : j < i) {L n : Nat} {rnd : Nat → ℝ} {θ : String → Option ℝ} (c c' : Context × U64)
    (f : Option Fault) : (takeCircuit C i).StepOn L n rnd θ j c c' f ↔ C.StepOn L n rnd θ j c c' f := by
  unfold Circuit.StepOn takeCircuit
  dsimp only
  rw [List.getElem?_take_of_lt hj, List.getElem?_take_of_lt hj]

end Verif.Proofs
