import Verif.Proofs.QasmLists
import Verif.Proofs.QasmSafe

/-! # OpenQASM: the table of gates -/

namespace Verif.Proofs
open Verif Verif.Spec Verif.Model

/-- the names of the table -/
def qelibNames : List Text := [t! "id", t! "x", t! "y", t! "z", t! "h", t! "s", t! "sdg", t! "t", t! "tdg", t! "rx", t! "ry", t! "rz", t! "u1", t! "u2",
  t! "u3", t! "u", t! "cx", t! "cnot", t! "cy", t! "cz", t! "ch", t! "crx", t! "cry", t! "crz", t! "cu1", t! "cu3", t! "ccx", t! "swap", t! "cswap"]

theorem qelib_unknown {name : Text} (h : name ∉ qelibNames) (ps : List ℝ) (qs : List Nat) :
    qelibGate name ps qs = none ∧ ∃ m, gateNamed (if name = t! "u" then t! "u3" else name) ps qs = .error (.throw m) := by
  have hne : ∀ n ∈ qelibNames, name ≠ n := fun n hn e => h (e ▸ hn)
  constructor
  · unfold qelibGate
    have : qelibTable.find? (fun e => e.1.toList = name) = none := by
      rw [List.find?_eq_none]
      intro e he
      have : e.1.toList ∈ qelibTable.map fun e => e.1.toList := List.mem_map.2 ⟨e, he, rfl⟩
      have hn := hne e.1.toList this
      simpa using fun e => hn e.symm
    rw [this]
  · have hu := hne (t! "u") (by decide)
    rw [if_neg hu]
    unfold gateNamed
    simp only [hne (t! "id") (by decide), hne (t! "x") (by decide), hne (t! "y") (by decide), hne (t! "z") (by decide), hne (t! "h") (by decide),
      hne (t! "s") (by decide), hne (t! "sdg") (by decide), hne (t! "t") (by decide), hne (t! "tdg") (by decide), hne (t! "rx") (by decide),
      hne (t! "ry") (by decide), hne (t! "rz") (by decide), hne (t! "u1") (by decide), hne (t! "u2") (by decide), hne (t! "u3") (by decide),
      hne (t! "cx") (by decide), hne (t! "cnot") (by decide), hne (t! "cy") (by decide), hne (t! "cz") (by decide), hne (t! "ch") (by decide),
      hne (t! "crx") (by decide), hne (t! "cry") (by decide), hne (t! "crz") (by decide), hne (t! "cu1") (by decide), hne (t! "cu3") (by decide),
      hne (t! "ccx") (by decide), hne (t! "swap") (by decide), hne (t! "cswap") (by decide), or_self, if_false]
    exact ⟨_, rfl⟩

/-- the table of the specification and `add_gate` -/
theorem gate_agree (name : Text) (ps : List ℝ) (qs : List Nat) :
    Agree (qelibGate name ps qs) (gateNamed (if name = t! "u" then t! "u3" else name) ps qs) := by
  by_cases h : name ∈ qelibNames
  · unfold qelibNames at h
    simp only [List.mem_cons, List.not_mem_nil, or_false] at h
    rcases h with rfl | rfl | rfl | rfl | rfl | rfl | rfl | rfl | rfl | rfl | rfl | rfl | rfl | rfl | rfl | rfl | rfl | rfl | rfl | rfl | rfl | rfl |
      rfl | rfl | rfl | rfl | rfl | rfl | rfl <;> unfold qelibGate gateNamed <;> simp [qelibTable] <;>
      rcases ps with _ | ⟨_, _ | ⟨_, _ | ⟨_, _ | ⟨_, _⟩⟩⟩⟩ <;> rcases qs with _ | ⟨_, _ | ⟨_, _ | ⟨_, _ | ⟨_, _⟩⟩⟩⟩ <;>
      first | exact rfl | exact ⟨_, rfl⟩
  · obtain ⟨h1, h2⟩ := qelib_unknown h ps qs
    rw [h1]
    exact h2

/-- the gates of the table can be built on qubits below 64 -/
theorem qelib_build {name : Text} {ps : List ℝ} {qs : List Nat} {d : GateDesc} (h : qelibGate name ps qs = some (some d)) (hn : qs.Nodup) :
    if ∃ q ∈ qs, 64 ≤ q then ∃ m, d.build = .error (.throw m) else ∃ g, d.build = .ok g := by
  have key : ∀ n ts, qs.drop n = ts → if ∃ q ∈ qs, 64 ≤ q then ∃ m, mkOperands ts (qs.take n) [] = .error (.throw m) else ∃ o, mkOperands ts (qs.take n) [] = .ok o := by
    rintro n _ rfl
    have hs := List.take_append_drop n qs
    generalize qs.take n = a, qs.drop n = b at *
    subst hs
    have hd := List.nodup_append.1 hn
    split
    · rename_i h
      obtain ⟨q, hq, hge⟩ := h
      rcases mkOperands_defined b a [] with ⟨o, ho⟩ | h
      · exfalso
        obtain ⟨-, a2, -, a4, -⟩ := mkOperands_ok ho
        rcases List.mem_append.1 hq with hq | hq
        · exact absurd (a4 q hq) (by omega)
        · exact absurd (a2 q hq) (by omega)
      · exact h
    · rename_i h
      push Not at h
      exact mkOperands_complete hd.2.1 (fun x hx => h x (List.mem_append_right _ hx)) hd.1 (fun x hx => h x (List.mem_append_left _ hx))
        (fun x hx hx' => hd.2.2 x hx' x hx rfl) (by simp [effectiveValues]) (by simp [effectiveValues])
  unfold qelibGate at h
  split at h
  · cases h
  · split at h
    · split at h <;> cases h
    · rename_i hd _
      obtain ⟨k, hk, e⟩ := Option.map_eq_some_iff.1 h
      cases e
      have := key _ _ hd
      split at this
      · rename_i hq
        obtain ⟨m, hm⟩ := this
        rw [if_pos hq]
        exact ⟨m, by simp only [GateDesc.build, hm]; rfl⟩
      · rename_i hq
        obtain ⟨o, ho⟩ := this
        rw [if_neg hq]
        exact ⟨_, by simp only [GateDesc.build, ho]; rfl⟩
    · rename_i hd _
      split at h <;> cases h
      have := key _ _ hd
      split at this
      · rename_i hq
        obtain ⟨m, hm⟩ := this
        rw [if_pos hq]
        exact ⟨m, by simp only [GateDesc.build, hm]; rfl⟩
      · rename_i hq
        obtain ⟨o, ho⟩ := this
        rw [if_neg hq]
        exact ⟨_, by simp only [GateDesc.build, ho]; rfl⟩
    · cases h

end Verif.Proofs
