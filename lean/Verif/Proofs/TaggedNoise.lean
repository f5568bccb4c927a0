import Verif.Proofs.Tagged

/-! # Noise simulation on tagged gates -/

namespace Verif.Proofs
open Verif Verif.Spec Verif.Model

/-- an alternative without fields -/
def altUp : Alt → TAlt
  | .inl u => .inl (.det u)
  | .inr (r, k) => .inr (.rot r, k)

/-- the field of a probabilistic gate names its class -/
def NoiseTag : TItem → Prop
  | .inl g => g.tag = g.obj.cls.type ∨ (g.tag = .Unknown ∧ ∃ u, g.obj = .det u)
  | .inr (p, _) => p.tag = p.obj.cls.type ∨ (p.tag = .Unknown ∧ ∃ r, p.obj = .rot r)

theorem noiseTag_make (g : Item) : NoiseTag (TItem.make g) := by
  rcases g with g | ⟨p, k⟩
  · exact .inl rfl
  · exact .inl rfl

theorem det_not_prob (u : UGate) : (Gate.det u).cls.type ≠ .Probabilistic := fun h => by
  obtain ⟨_, h⟩ := (cls_prob _).1 h; cases h

theorem det_not_meas (u : UGate) : (Gate.det u).cls.type ≠ .Measurement := fun h => by
  obtain ⟨_, h⟩ := (cls_meas _).1 h; cases h

theorem rot_not_prob (r : PRot) : (PGate.rot r).cls.type ≠ .ParamProbabilistic := fun h => by
  obtain ⟨_, h⟩ := (cls_pprob _).1 h; cases h

theorem alternatives_plain {g : TItem} (h : NoiseTag g) :
    g.alternatives = (Item.alternatives g.plain).map fun a => (a.1, a.2.map altUp) := by
  rcases g with ⟨o, t⟩ | ⟨⟨o, t⟩, k⟩
  · unfold TItem.alternatives
    dsimp only [TItem.plain]
    rcases h with h | ⟨h, u, hu⟩
    · dsimp only at h
      subst h
      rcases o with u | t | m
      · rw [if_neg (det_not_prob u), if_neg (det_not_meas u)]; rfl
      · show (.ok _ : Res (List ℝ × List TAlt)) = .ok _
        congr 2
        dsimp only
        rw [List.map_map]; rfl
      · rfl
    · dsimp only at h hu
      subst h hu
      rfl
  · unfold TItem.alternatives
    dsimp only [TItem.plain]
    rcases h with h | ⟨h, u, hu⟩
    · dsimp only at h
      subst h
      rcases o with r | t
      · rw [if_neg (rot_not_prob r)]; rfl
      · show (.ok _ : Res (List ℝ × List TAlt)) = .ok _
        congr 2
        dsimp only
        rw [List.map_map]
        refine List.map_congr_left fun u _ => ?_
        cases u <;> rfl
    · dsimp only at h hu
      subst h hu
      rfl

theorem alt_runsBatched (L B n : Nat) (params : String → Option ℝ) (a : Alt) (Ψ Ψ' : U64 → ℂ) (f : Option Fault) :
    TAlt.RunsBatched L B n params (altUp a) Ψ Ψ' f ↔ Alt.RunsBatched L B n params a Ψ Ψ' f := by
  rcases a with u | ⟨r, k⟩
  · show (∃ (rnd : Nat → ℝ) (c' : BContext), Gate.RunsBatched L B n rnd (.det u) ⟨Ψ, ⟨0, List.replicate B []⟩, 0⟩ c' f ∧ Ψ' = c'.psi) ↔
      ∃ c' : BContext, Gate.RunsBatched L B n (fun _ => 0) (.det u) ⟨Ψ, ⟨0, []⟩, 0⟩ c' f ∧ Ψ' = c'.psi
    unfold Gate.RunsBatched
    dsimp only
    cases u.update L B n with
    | error e =>
      dsimp only
      constructor
      · rintro ⟨_, c', ⟨rfl, rfl⟩, rfl⟩; exact ⟨_, ⟨rfl, rfl⟩, rfl⟩
      · rintro ⟨c', ⟨rfl, rfl⟩, rfl⟩; exact ⟨fun _ => 0, _, ⟨rfl, rfl⟩, rfl⟩
    | ok dev =>
      dsimp only
      constructor
      · rintro ⟨_, c', ⟨rfl, _, _, h⟩, rfl⟩; exact ⟨⟨c'.psi, ⟨0, []⟩, 0⟩, ⟨rfl, rfl, rfl, h⟩, rfl⟩
      · rintro ⟨c', ⟨rfl, _, _, h⟩, rfl⟩; exact ⟨fun _ => 0, ⟨c'.psi, _, 0⟩, ⟨rfl, rfl, rfl, h⟩, rfl⟩
  · unfold Alt.RunsBatched TAlt.RunsBatched altUp
    dsimp only
    cases params k with
    | none => exact Iff.rfl
    | some θ =>
      dsimp only
      unfold PGate.RunsBatched PRot.RunsBatched
      dsimp only
      cases checkWithinBounds r.operands n with
      | error e =>
        dsimp only
        constructor
        · rintro ⟨_, c', ⟨rfl, rfl⟩, rfl⟩; exact ⟨_, ⟨rfl, rfl⟩, rfl⟩
        · rintro ⟨c', ⟨rfl, rfl⟩, rfl⟩; exact ⟨fun _ => 0, _, ⟨rfl, rfl⟩, rfl⟩
      | ok _ =>
        dsimp only
        have hB : B ≤ (List.replicate B θ).length := by rw [List.length_replicate]
        rw [exists_congr fun _ => exists_congr fun _ => and_congr_left fun _ => iff_of_eq (dif_pos hB)]
        rw [exists_congr (p := fun c' : BContext => _ ∧ Ψ' = c'.psi) fun _ => and_congr_left fun _ => iff_of_eq (dif_pos hB)]
        constructor
        · rintro ⟨_, c', ⟨rfl, _, _, m', h, h'⟩, rfl⟩; exact ⟨⟨c'.psi, ⟨0, []⟩, 0⟩, ⟨rfl, rfl, rfl, m', h, h'⟩, rfl⟩
        · rintro ⟨c', ⟨rfl, _, _, m', h, h'⟩, rfl⟩; exact ⟨fun _ => 0, ⟨c'.psi, _, 0⟩, ⟨rfl, rfl, rfl, m', h, h'⟩, rfl⟩

theorem insertAlt_plain (L n : Nat) (params : String → Option ℝ) (s : NoiseState) (newSize : Nat) (used : List (List Nat)) (alts : List Alt) :
    TInsertAlt L n params s newSize used (alts.map altUp) = InsertAlt L n params s newSize used alts := by
  funext i t t' f
  unfold TInsertAlt InsertAlt
  rw [List.getElem?_map]
  cases alts[i]? with
  | none => rfl
  | some a => exact propext <| exists_congr fun tmp => exists_congr fun f1 => and_congr (alt_runsBatched ..) Iff.rfl

theorem noiseStep_plain {g : TItem} (h : NoiseTag g) (L n : Nat) (draws : Nat → Nat) (params : String → Option ℝ) :
    TNoiseStep L n draws params g = NoiseStep L n draws params g.plain := by
  funext s s' f
  unfold TNoiseStep NoiseStep
  rw [alternatives_plain h]
  cases Item.alternatives g.plain with
  | error e => rfl
  | ok a =>
    obtain ⟨probs, alts⟩ := a
    dsimp only [Except.map]
    split
    · cases countDraws draws probs.length s.size s.counts s.pos with
      | error e => rfl
      | ok r =>
        obtain ⟨used, newSize, pos⟩ := r
        dsimp only
        rw [insertAlt_plain]
    · rfl

theorem seqRun_map {ι κ C : Type} {stepA : ι → C → C → Option Fault → Prop} {stepB : κ → C → C → Option Fault → Prop} (u : ι → κ) :
    ∀ {l : List ι} (_ : ∀ i ∈ l, stepA i = stepB (u i)) {c c' : C} {f : Option Fault}, SeqRun stepA l c c' f ↔ SeqRun stepB (l.map u) c c' f := by
  intro l
  induction l with
  | nil =>
    intro _ c c' f
    constructor
    · intro h; cases h; exact .nil _
    · intro h; cases h; exact .nil _
  | cons i l ih =>
    intro h c c' f
    have ih := @ih fun j hj => h j (List.mem_cons_of_mem _ hj)
    have hi := h i List.mem_cons_self
    rw [List.map_cons]
    constructor
    · intro hr
      cases hr with
      | cons _ _ _ c1 _ _ h1 h2 => exact .cons _ _ _ c1 _ _ (hi ▸ h1) (ih.1 h2)
      | stop _ _ _ _ e h1 => exact .stop _ _ _ _ e (hi ▸ h1)
    · intro hr
      cases hr with
      | cons _ _ _ c1 _ _ h1 h2 => exact .cons _ _ _ c1 _ _ (hi ▸ h1) (ih.2 h2)
      | stop _ _ _ _ e h1 => exact .stop _ _ _ _ e (hi ▸ h1)

theorem circuit_simulatesNoise {C : TCircuit} (h : ∀ g ∈ C.gates, NoiseTag g) (L n : Nat) (draws : Nat → Nat) (params : String → Option ℝ)
    (ψ : U64 → ℂ) (shots : Nat) (out : Res (List ((U64 → ℂ) × Int))) :
    C.SimulatesNoise L n draws params ψ shots out ↔ C.plain.SimulatesNoise L n draws params ψ shots out := by
  unfold TCircuit.SimulatesNoise Circuit.SimulatesNoise
  cases C.plain.checkQubits n with
  | error e => exact Iff.rfl
  | ok _ => exact exists_congr fun junk => exists_congr fun s => exists_congr fun f =>
      and_congr (seqRun_map TItem.plain fun g hg => noiseStep_plain (h g hg) ..) Iff.rfl

/-! ## all fields unknown -/

theorem alternatives_unknown {g : TItem} (h : UnknownItem g) : ∃ a, g.alternatives = .ok ([1], [a]) := by
  rcases g with ⟨o, t⟩ | ⟨⟨o, t⟩, k⟩
  · obtain rfl : t = .Unknown := h
    exact ⟨_, rfl⟩
  · obtain rfl : t = .Unknown := h
    exact ⟨_, rfl⟩

theorem drawRow_single {draws : Nat → Nat} : ∀ (m : Nat) (c ns pos : Nat) {r : List Nat × Nat × Nat},
    drawRow draws 1 m ([c], ns, pos) = .ok r → r.1 = [c + m] ∧ r.2.1 = if c = 0 ∧ 0 < m then ns + 1 else ns
  | 0, c, ns, pos, r, h => by cases h; exact ⟨rfl, by simp⟩
  | m + 1, c, ns, pos, r, h => by
    unfold drawRow at h
    dsimp only at h
    split at h
    · cases h
    · next hj =>
      have hj : draws pos = 0 := by omega
      rw [hj] at h
      have h : drawRow draws 1 m ([c + 1], if c = 0 then ns + 1 else ns, pos + 1) = .ok r := h
      obtain ⟨h1, h2⟩ := drawRow_single m _ _ _ h
      refine ⟨by rw [h1]; congr 1; omega, ?_⟩
      rw [h2, if_neg (by omega)]
      by_cases hc : c = 0 <;> simp [hc]

theorem step_unknown {g : TItem} (h : UnknownItem g) {L n : Nat} {draws : Nat → Nat} {params : String → Option ℝ} {s s' : NoiseState} {shots : Nat}
    (hs : 0 < shots) (h1 : s.size = 1) (h2 : s.counts = [shots]) (hr : TNoiseStep L n draws params g s s' none) :
    s'.size = 1 ∧ s'.counts = [shots] := by
  obtain ⟨a, ha⟩ := alternatives_unknown h
  unfold TNoiseStep at hr
  rw [ha] at hr
  dsimp only at hr
  split at hr
  · rw [h1, h2] at hr
    have e : ∀ r, drawRow draws 1 shots (List.replicate 1 0, 0, s.pos) = r →
        countDraws draws [(1 : ℝ)].length 1 [shots] s.pos = (do let (row, ns, pos) ← r; pure ([row], ns, pos)) := by
      rintro r rfl
      unfold countDraws
      rw [show List.range 1 = [0] from rfl, List.foldlM_cons]
      unfold drawSlot
      dsimp only [List.getElem?_cons_zero, List.length_singleton]
      cases drawRow draws 1 shots (List.replicate 1 0, 0, s.pos) <;> rfl
    rw [e _ rfl] at hr
    cases hd : drawRow draws 1 shots (List.replicate 1 0, 0, s.pos) with
    | error e' => rw [hd] at hr; obtain ⟨_, hr⟩ := hr; cases hr
    | ok r =>
      obtain ⟨k1, k2⟩ := drawRow_single (draws := draws) shots 0 0 s.pos hd
      rw [hd] at hr
      obtain ⟨row, ns, pos⟩ := r
      dsimp only at k1 k2
      rw [if_pos ⟨rfl, hs⟩] at k2
      subst k1 k2
      obtain ⟨junk, t, hrun, rfl⟩ := hr
      refine ⟨rfl, ?_⟩
      dsimp only at hrun ⊢
      cases hrun with
      | cons _ _ _ c1 _ _ q1 q2 =>
        cases q2
        obtain ⟨tmp, f1, -, q1⟩ := q1
        cases f1 with
        | some e => obtain ⟨_, q1⟩ := q1; cases q1
        | none =>
          dsimp only at q1
          rw [h1] at q1
          have hne : ¬ 0 + shots = 0 := by omega
          have : (List.range 1).foldlM (insertState 1 n tmp [[0 + shots]] 0) (junk, List.replicate 1 0, 0) =
              .ok (putSlot n 0 (slotOf n 0 tmp) junk, [shots], 1) := by
            rw [show List.range 1 = [0] from rfl, List.foldlM_cons]
            unfold insertState
            dsimp only [List.getElem?_cons_zero]
            rw [if_neg hne, if_neg (by simp), if_neg (by simp)]
            rw [ok_bind, List.foldlM_nil, Nat.zero_add]
            rfl
          rw [show (0 + 1 : Nat) = 1 from rfl] at q1
          rw [this] at q1
          rw [q1.1]
  · obtain ⟨_, hr⟩ := hr; cases hr

theorem loop_unknown {L n : Nat} {draws : Nat → Nat} {params : String → Option ℝ} {shots : Nat} (hs : 0 < shots) :
    ∀ {l : List TItem} (_ : ∀ g ∈ l, UnknownItem g) {s s' : NoiseState} (_ : s.size = 1) (_ : s.counts = [shots])
      (_ : SeqRun (TNoiseStep L n draws params) l s s' none), s'.size = 1 ∧ s'.counts = [shots] := by
  intro l
  induction l with
  | nil => intro _ s s' h1 h2 hr; cases hr; exact ⟨h1, h2⟩
  | cons g l ih =>
    intro h s s' h1 h2 hr
    cases hr with
    | cons _ _ _ c1 _ _ q1 q2 =>
      obtain ⟨k1, k2⟩ := step_unknown (h g List.mem_cons_self) hs h1 h2 q1
      exact ih (fun g hg => h g (List.mem_cons_of_mem _ hg)) k1 k2 q2

theorem noise_unknown {C : TCircuit} (h : ∀ g ∈ C.gates, UnknownItem g) {L n : Nat} {draws : Nat → Nat} {params : String → Option ℝ}
    {ψ : U64 → ℂ} {shots : Nat} (hs : 0 < shots) {l : List ((U64 → ℂ) × Int)} (hr : C.SimulatesNoise L n draws params ψ shots (.ok l)) :
    ∃ φ, l = [(φ, toInt64 shots)] := by
  unfold TCircuit.SimulatesNoise at hr
  cases hc : C.plain.checkQubits n with
  | error e => rw [hc] at hr; cases hr
  | ok _ =>
    rw [hc] at hr
    obtain ⟨junk, s, f, hr, ho⟩ := hr
    cases f with
    | some e => cases ho
    | none =>
      obtain ⟨k1, k2⟩ := loop_unknown hs h rfl rfl hr
      obtain ⟨size, psi, counts, pos⟩ := s
      dsimp only at k1 k2 ho
      subst k1 k2
      cases ho
      exact ⟨_, rfl⟩

end Verif.Proofs
